import Verif.Go.Float53
import Verif.Go.Sqrt53
import Verif.Props.Scale
import Verif.Props.F64Lines

/-!
# Change of units in floating point (C124)

`F53` is the arithmetic of float64 without the limits of the exponent. Prices times a power of two and volumes times
another one leave all roundings alone, so C55 holds for it as it stands; for other factors, even 10, it does not.
-/

set_option linter.unusedSectionVars false
set_option linter.unusedVariables false

namespace Verif.Props
open Verif Verif.Klines Verif.Ta Verif.Ind GoFloat

/-! ## Float64 and `F53` -/

theorem f53_ofMag {s : Bool} {q : ℚ} (hr : ∃ t p h, B64.ofMag s q = .fin t p h) (he : round53 q = roundMag q) :
    F53.of (B64.ofMag s q) = F53.ofMag s q := by
  rw [B64.ofMag] at hr ⊢
  split
  · rw [F53.of, F53.ofMag, he]
  · rename_i h
    rw [dif_neg h] at hr
    obtain ⟨t, p, h', e⟩ := hr
    cases e

theorem round53_of_large {q : ℚ} (h : (2 : ℚ) ^ (-1022 : ℤ) < roundMag q) : round53 q = roundMag q := by
  refine round53_normal (le_of_not_gt fun hlt => ?_)
  have hr : Rep (2 ^ (-1022 : ℤ)) := by simpa using rep_scaled (n := 1) (e := -1022) (by norm_num) (by norm_num) (by norm_num)
  have := roundMag_mono hlt.le
  rw [roundMag_rep hr] at this
  linarith

/-- A finite float64 of magnitude greater than the smallest normal number. -/
def Normal64 (x : B64) : Prop := ∃ s q h, x = .fin s q h ∧ (2 : ℚ) ^ (-1022 : ℤ) < q

theorem f53_ofMag_normal {s : Bool} {q : ℚ} (hn : Normal64 (B64.ofMag s q)) : F53.of (B64.ofMag s q) = F53.ofMag s q := by
  obtain ⟨t, p, h, e, hp⟩ := hn
  refine f53_ofMag ⟨t, p, h, e⟩ ?_
  rw [B64.ofMag] at e
  split at e
  · simp only [B64.fin.injEq] at e
    exact round53_of_large (e.2 ▸ hp)
  · cases e

/-- The magnitude of the sum of two float64 is rounded alike. -/
theorem round53_sum {s t : Bool} {p q : ℚ} (hp : Rep p) (hq : Rep q) :
    round53 |B64.signed s p + B64.signed t q| = roundMag |B64.signed s p + B64.signed t q| := by
  obtain ⟨m, hm⟩ := hp.multiple
  obtain ⟨n, hn⟩ := hq.multiple
  obtain ⟨z, hz⟩ : ∃ z : ℤ, B64.signed s p + B64.signed t q = z * 2 ^ (-1074 : ℤ) := by
    refine ⟨(if s then -(m : ℤ) else m) + (if t then -(n : ℤ) else n), ?_⟩
    rw [hm, hn, B64.signed, B64.signed]
    cases s <;> cases t <;> push_cast <;> simp <;> ring
  have hpos : (0 : ℚ) < 2 ^ (-1074 : ℤ) := zpow_pos (by norm_num) _
  have e : |B64.signed s p + B64.signed t q| = (z.natAbs : ℚ) * 2 ^ (-1074 : ℤ) := by
    rw [hz, abs_mul, abs_of_pos hpos, ← Int.cast_abs, ← Int.natCast_natAbs, Int.cast_natCast]
  rw [e]
  rcases lt_or_ge ((z.natAbs : ℚ) * 2 ^ (-1074 : ℤ)) (2 ^ (-1022 : ℤ)) with h | h
  · rw [(round53_small h).1, (round53_small h).2]
  · exact round53_normal h

theorem f53_val (x : B64) : (F53.of x).val = x.val := by
  cases x <;> rfl

theorem f53_signbit (x : B64) : (F53.of x).signbit = x.signbit := by
  cases x <;> rfl

theorem f53_ofRat {z : Bool} {q : ℚ} (h : q = 0 ∨ Normal64 (B64.ofRat z q)) : F53.of (B64.ofRat z q) = F53.ofRat z q := by
  by_cases h0 : q = 0
  · rw [B64.ofRat, F53.ofRat, if_pos h0, if_pos h0]; rfl
  · have h := h.resolve_left h0
    rw [B64.ofRat, if_neg h0] at h ⊢
    rw [F53.ofRat, if_neg h0]
    exact f53_ofMag_normal h

/-- A finite float64. -/
def Finite64 (x : B64) : Prop := ∃ s q h, x = .fin s q h

theorem f53_add {x y : B64} (h : Finite64 x → Finite64 y → Finite64 (x +. y)) : F53.of (x +. y) = F53.of x +. F53.of y := by
  show F53.of (B64.add x y) = F53.add (F53.of x) (F53.of y)
  cases x with
  | nan => rfl
  | inf s => cases y <;> first | rfl | (simp only [B64.add, F53.of, F53.add]; split_ifs <;> rfl)
  | fin s p hp =>
    cases y with
    | nan => rfl
    | inf t => rfl
    | fin t q hq =>
      obtain ⟨u, r, hr, e⟩ := h ⟨s, p, hp, rfl⟩ ⟨t, q, hq, rfl⟩
      have e : B64.ofRat (s && t) (B64.signed s p + B64.signed t q) = .fin u r hr := e
      show F53.of (B64.ofRat (s && t) (B64.signed s p + B64.signed t q)) = F53.ofRat (s && t) (B64.signed s p + B64.signed t q)
      by_cases h0 : B64.signed s p + B64.signed t q = 0
      · rw [B64.ofRat, F53.ofRat, if_pos h0, if_pos h0]; rfl
      · rw [B64.ofRat, if_neg h0] at e ⊢
        rw [F53.ofRat, if_neg h0]
        exact f53_ofMag ⟨u, r, hr, e⟩ (round53_sum hp hq)

/-- The value 0, of either sign. -/
def Zero64 (x : B64) : Prop := x.val = .fin 0

theorem Zero64.mag {s : Bool} {q : ℚ} {h : Rep q} (hz : Zero64 (.fin s q h)) : q = 0 := by
  simp only [Zero64, B64.val, B64.signed, XF.fin_inj] at hz
  split at hz <;> linarith

theorem f53_ofMag_zero (s : Bool) : F53.of (B64.ofMag s 0) = F53.ofMag s 0 :=
  f53_ofMag ⟨s, 0, rep_zero, by
    have h : roundMag 0 ≤ maxFinite := by rw [roundMag_zero]; exact rep_zero.2
    rw [roundMag_zero] at h
    simp only [B64.ofMag, roundMag_zero, dif_pos h]⟩ (by simp [round53])

theorem f53_neg (x : B64) : F53.of (B64.neg x) = F53.neg (F53.of x) := by cases x <;> rfl

/-- C124: one operation of float64 is the operation of `F53` if the result is a normal number or exactly 0; for sums
and differences it is enough that it is finite. Comparisons, `math.Abs`, `math.Max` and `math.Min` always agree. -/
theorem C124_agrees (x y : B64) :
    (Finite64 (x +. y) → F53.of (x +. y) = F53.of x +. F53.of y) ∧
    (Finite64 (x -. y) → F53.of (x -. y) = F53.of x -. F53.of y) ∧
    (Normal64 (x *. y) ∨ Zero64 x ∨ Zero64 y → F53.of (x *. y) = F53.of x *. F53.of y) ∧
    (Normal64 (x /. y) ∨ Zero64 x → F53.of (x /. y) = F53.of x /. F53.of y) ∧
    (F53.of x <. F53.of y) = (x <. y) ∧ (F53.of x <=. F53.of y) = (x <=. y) ∧ (F53.of x ==. F53.of y) = (x ==. y) ∧
    F53.of (abs x) = abs (F53.of x) ∧ F53.of (max x y) = max (F53.of x) (F53.of y) ∧
    F53.of (min x y) = min (F53.of x) (F53.of y) ∧
    (∀ n : Int, n = 0 ∨ Normal64 (fl n) → F53.of (fl n) = fl n) ∧
    ∀ q : Rat, q = 0 ∨ Normal64 (lit q) → F53.of (lit q) = lit q := by
  refine ⟨fun h => f53_add fun _ _ => h, fun h => ?_, fun h => ?_, fun h => ?_, ?_, ?_, ?_,
    ?_, ?_, ?_, fun n hn => ?_, fun q hq => f53_ofRat hq⟩
  · show F53.of (x +. B64.neg y) = F53.of x +. F53.neg (F53.of y)
    rw [← f53_neg]
    exact f53_add fun _ _ => h
  · show F53.of (B64.mul x y) = F53.mul (F53.of x) (F53.of y)
    cases x with
    | nan => rfl
    | inf s =>
      cases y with
      | nan => rfl
      | inf t => rfl
      | fin t q hq => simp only [B64.mul, F53.of, F53.mul]; split_ifs <;> rfl
    | fin s p hp =>
      cases y with
      | nan => rfl
      | inf t => simp only [B64.mul, F53.of, F53.mul]; split_ifs <;> rfl
      | fin t q hq =>
        show F53.of (B64.ofMag (s ^^ t) (p * q)) = F53.ofMag (s ^^ t) (p * q)
        rcases h with h | h | h
        · have e : B64.fin s p hp *. B64.fin t q hq = B64.ofMag (s ^^ t) (p * q) := by
            show B64.mul _ _ = _
            rw [B64.mul]
          exact f53_ofMag_normal (e ▸ h)
        · rw [h.mag, zero_mul]; exact f53_ofMag_zero _
        · rw [h.mag, mul_zero]; exact f53_ofMag_zero _
  · show F53.of (B64.div x y) = F53.div (F53.of x) (F53.of y)
    cases x with
    | nan => rfl
    | inf s => cases y <;> rfl
    | fin s p hp =>
      cases y with
      | nan => rfl
      | inf t => rfl
      | fin t q hq =>
        by_cases h0 : q = 0
        · simp only [B64.div, F53.of, F53.div, if_pos h0]; split_ifs <;> rfl
        · rw [B64.div, if_neg h0, show F53.div (F53.of (.fin s p hp)) (F53.of (.fin t q hq)) = F53.ofMag (s ^^ t) (p / q) by
            show F53.div (.fin s p) (.fin t q) = _; rw [F53.div, if_neg h0]]
          rcases h with h | h
          · have e : B64.fin s p hp /. B64.fin t q hq = B64.ofMag (s ^^ t) (p / q) := by
              show B64.div _ _ = _
              rw [B64.div, if_neg h0]
            exact f53_ofMag_normal (e ▸ h)
          · rw [h.mag, zero_div]; exact f53_ofMag_zero _
  · show XF.lt _ _ = XF.lt _ _; rw [f53_val, f53_val]
  · show (XF.lt _ _ || XF.eq _ _) = (XF.lt _ _ || XF.eq _ _); rw [f53_val, f53_val]
  · show XF.eq _ _ = XF.eq _ _; rw [f53_val, f53_val]
  · cases x <;> rfl
  · show F53.of (B64.max x y) = F53.max (F53.of x) (F53.of y)
    simp only [B64.max, F53.max, f53_val, f53_signbit]
    split_ifs <;> rfl
  · show F53.of (B64.min x y) = F53.min (F53.of x) (F53.of y)
    simp only [B64.min, F53.min, f53_val, f53_signbit]
    split_ifs <;> rfl
  · refine f53_ofRat (hn.imp (fun h => ?_) id)
    rw [h]; rfl

/-! ## Powers of two -/

theorem signed_shift (k : ℤ) (s : Bool) (q : ℚ) : B64.signed s (2 ^ k * q) = 2 ^ k * B64.signed s q := by
  cases s <;> simp [B64.signed]

theorem ofRat_shift (k : ℤ) (z : Bool) (q : ℚ) : F53.ofRat z (2 ^ k * q) = F53.shift k (F53.ofRat z q) := by
  have hp : (0 : ℚ) < 2 ^ k := zpow_pos (by norm_num) k
  by_cases h : q = 0
  · simp [F53.ofRat, h, F53.shift]
  · rw [F53.ofRat, F53.ofRat, if_neg (mul_ne_zero hp.ne' h), if_neg h, F53.ofMag, F53.ofMag, F53.shift, abs_mul,
      abs_of_pos hp, round53_shift]
    congr 1
    simp [mul_neg_iff, hp, not_lt_of_gt hp]

theorem val_shift (k : ℤ) (x : F53) : (F53.shift k x).val = XF.times (2 ^ k) x.val := by
  cases x with
  | nan => rfl
  | inf s => cases s <;> rfl
  | fin s q => simp [F53.shift, F53.val, XF.times, signed_shift]

theorem add_shift (k : ℤ) (a b : F53) : F53.add (F53.shift k a) (F53.shift k b) = F53.shift k (F53.add a b) := by
  cases a with
  | nan => rfl
  | inf s => cases b <;> first | rfl | (simp only [F53.shift, F53.add]; split <;> rfl)
  | fin s p =>
    cases b with
    | nan => rfl
    | inf t => rfl
    | fin t q => simp only [F53.shift, F53.add, signed_shift, ← mul_add]; exact ofRat_shift k _ _

theorem neg_shift (k : ℤ) (a : F53) : F53.neg (F53.shift k a) = F53.shift k (F53.neg a) := by cases a <;> rfl

/-- In this arithmetic every power of two is a change of unit. -/
def shiftScaling (k : ℤ) : Scaling F53 :=
  have hp : (0 : ℚ) < 2 ^ k := zpow_pos (by norm_num) k
  { s := F53.shift k
    add := add_shift k
    sub := fun a b => by
      show F53.add _ (F53.neg _) = F53.shift k (F53.add _ (F53.neg _))
      rw [neg_shift, add_shift]
    mul_left := fun a b => by
      show F53.mul _ _ = F53.shift k (F53.mul _ _)
      cases a <;> cases b <;> simp only [F53.mul, F53.shift, mul_eq_zero, hp.ne', false_or] <;>
        first | rfl | (split <;> rfl) | (rw [F53.ofMag, F53.ofMag, mul_assoc, round53_shift])
    mul_right := fun a b => by
      show F53.mul _ _ = F53.shift k (F53.mul _ _)
      cases a <;> cases b <;> simp only [F53.mul, F53.shift, mul_eq_zero, hp.ne', false_or] <;>
        first | rfl | (split <;> rfl) | (rw [F53.ofMag, F53.ofMag, mul_left_comm, round53_shift])
    div_left := fun a b => by
      show F53.div _ _ = F53.shift k (F53.div _ _)
      cases a <;> cases b <;> simp only [F53.div, F53.shift, mul_eq_zero, hp.ne', false_or, mul_zero] <;>
        first | rfl | (split_ifs <;> first | rfl | (rw [F53.ofMag, F53.ofMag, mul_div_assoc, round53_shift]))
    div_both := fun a b => by
      show F53.div _ _ = F53.div _ _
      cases a <;> cases b <;> simp only [F53.div, F53.shift, mul_eq_zero, hp.ne', false_or] <;>
        first | rfl | (rw [mul_div_mul_left _ _ hp.ne'])
    lt := fun a b => by
      show XF.lt _ _ = XF.lt _ _
      rw [val_shift, val_shift]; exact (Scaling.ofPos _ hp).lt _ _
    le := fun a b => by
      show (XF.lt _ _ || XF.eq _ _) = (XF.lt _ _ || XF.eq _ _)
      rw [val_shift, val_shift]; exact (Scaling.ofPos _ hp).le _ _
    eq := fun a b => by
      show XF.eq _ _ = XF.eq _ _
      rw [val_shift, val_shift]; exact (Scaling.ofPos _ hp).eq _ _
    zero := by
      show F53.shift k (F53.ofRat false _) = F53.ofRat false _
      simp [F53.ofRat, F53.shift]
    isNaN := fun a => by cases a <;> rfl
    isPosInf := fun a => by cases a with | inf s => cases s <;> rfl | _ => rfl
    isNegInf := fun a => by cases a with | inf s => cases s <;> rfl | _ => rfl
    abs := fun a => by cases a <;> rfl
    max := fun a b => by
      show F53.max _ _ = F53.shift k (F53.max _ _)
      have hz : ∀ v : XF ℚ, XF.times (2 ^ k) v = .fin 0 ↔ v = .fin 0 := fun v => by
        cases v <;> simp [XF.times, hp.ne']
      have hn : ∀ v : XF ℚ, (XF.times (2 ^ k) v = .nan ↔ v = .nan) ∧ (XF.times (2 ^ k) v = .pinf ↔ v = .pinf) := fun v => by
        cases v <;> simp [XF.times]
      have hs : ∀ x, (F53.shift k x).signbit = x.signbit := fun x => by cases x <;> rfl
      have hl : ∀ u v : XF ℚ, XF.lt (XF.times (2 ^ k) u) (XF.times (2 ^ k) v) = XF.lt u v := (Scaling.ofPos _ hp).lt
      simp only [F53.max, val_shift, hz, (hn _).1, (hn _).2, hs, hl]
      split_ifs <;> rfl
    min := fun a b => by
      show F53.min _ _ = F53.shift k (F53.min _ _)
      have hz : ∀ v : XF ℚ, XF.times (2 ^ k) v = .fin 0 ↔ v = .fin 0 := fun v => by
        cases v <;> simp [XF.times, hp.ne']
      have hn : ∀ v : XF ℚ, (XF.times (2 ^ k) v = .nan ↔ v = .nan) ∧ (XF.times (2 ^ k) v = .ninf ↔ v = .ninf) := fun v => by
        cases v <;> simp [XF.times]
      have hs : ∀ x, (F53.shift k x).signbit = x.signbit := fun x => by cases x <;> rfl
      have hl : ∀ u v : XF ℚ, XF.lt (XF.times (2 ^ k) u) (XF.times (2 ^ k) v) = XF.lt u v := (Scaling.ofPos _ hp).lt
      simp only [F53.min, val_shift, hz, (hn _).1, (hn _).2, hs, hl]
      split_ifs <;> rfl }

/-! ## Spec -/

/-- The same market in another unit: prices times `2^u`, volumes times `2^v`. -/
def reunit (u v : ℤ) (it : Item F53) : Item F53 :=
  { it with
    candles := it.candles.map fun k => { k with
      open_ := F53.shift u k.open_, high := F53.shift u k.high, low := F53.shift u k.low, close := F53.shift u k.close,
      volume := F53.shift v k.volume, amount := F53.shift u (F53.shift v k.amount) } }

/-- In the other unit the indicator yields the same records converted by `φ`, to the last bit, and panics in one unit
exactly when it panics in the other. -/
def Reunits (u v : ℤ) (I : Indicator F53) (φ : I.D → I.D) : Prop :=
  ∀ it, (I.data (reunit u v it)).toOption = (I.data it).toOption.map (List.map φ)

/-- The signals are the same in both units. -/
def SignalsReunit (u v : ℤ) (I : Strat F53) : Prop :=
  ∀ it, (I.signals (reunit u v it)).toOption = (I.signals it).toOption

variable {u v : ℤ}

theorem reunits_of {I : Indicator F53} {ok} {G} (hy : Yields I ok G) {φ : I.D → I.D}
    (hG : ∀ x i, G (fun j => inUnit (shiftScaling u) (shiftScaling v) (x j)) i = φ (G x i)) : Reunits u v I φ :=
  converts_of (σ := shiftScaling u) (τ := shiftScaling v) hy hG

theorem signalsReunit_of {I : Strat F53} {ok} {f} (hy : Signals I ok f)
    (hf : ∀ x i, f (fun j => inUnit (shiftScaling u) (shiftScaling v) (x j)) i = f x i) : SignalsReunit u v I :=
  sameSignals_of (σ := shiftScaling u) (τ := shiftScaling v) hy hf

/-- C124: moving averages, oscillators in price units and price channels are multiplied by the price factor,
for every volume factor. -/
theorem C124_price_lines (u v : ℤ) :
    (∀ p, Reunits u v (SMA p) fun r => { r with value := F53.shift u r.value }) ∧
    (∀ p, Reunits u v (MAi p) fun r => { r with value := F53.shift u r.value }) ∧
    (∀ p, Reunits u v (EMA p) fun r => { r with value := F53.shift u r.value }) ∧
    (∀ p, Reunits u v (DEMA p) fun r => { r with value := F53.shift u r.value }) ∧
    (∀ p, Reunits u v (VWMA p) fun r => { r with value := F53.shift u r.value }) ∧
    (∀ a b, Reunits u v (APO a b).toIndicator fun r => { r with value := F53.shift u r.value }) ∧
    Reunits u v (Awesome).toIndicator (fun r => { r with value := F53.shift u r.value }) ∧
    (∀ a b d, Reunits u v (MACD a b d).toIndicator fun r =>
      ⟨r.time, F53.shift u r.dif, F53.shift u r.dea, F53.shift u r.macd⟩) ∧
    (∀ p, Reunits u v (ATR p) fun r => ⟨r.time, F53.shift u r.tr, F53.shift u r.atr⟩) ∧
    (∀ a b, Reunits u v (XO a b).toIndicator fun r => ⟨r.time, F53.shift u r.fast, F53.shift u r.slow⟩) ∧
    (∀ p s1 s2 l1 l2, Reunits u v (Vegas p s1 s2 l1 l2).toIndicator (vegasIn (F53.shift u))) ∧
    (∀ a b s, Reunits u v (LRC a b s) (lrcIn (F53.shift u))) ∧
    (∀ p, Reunits u v (Donchian p).toIndicator (bandIn (F53.shift u))) ∧
    (∀ p, Reunits u v (Keltner p).toIndicator (bandIn (F53.shift u))) ∧
    (∀ a b d, Reunits u v (Ichimoku a b d).toIndicator (ichiIn (F53.shift u))) ∧
    (∀ p, Reunits u v (Camarilla p) (camIn (F53.shift u))) ∧
    (∀ p m, Reunits u v (ST p m true).toIndicator (stIn (F53.shift u))) ∧
    (∀ p a f, Reunits u v (PPST p a f).toIndicator (stIn (F53.shift u))) ∧
    (∀ p a, Reunits u v (UT p a).toIndicator fun r => ⟨r.time, F53.shift u r.close, F53.shift u r.value⟩) ∧
    (∀ ps n, Reunits u v (BP ps n) fun r => { r with list := r.list.map (lineIn (F53.shift u)) }) :=
  ⟨fun p => reunits_of (SMA.makes p).yields (sma_u p),
    fun p => reunits_of (MAi.appends p).yields (sma_u p),
    fun p => reunits_of (EMA.makes p).yields (ema_u p),
    fun p => reunits_of (DEMA.makes p).yields (dema_u p),
    fun p => reunits_of (VWMA.appends p).yields (vwma_u p),
    fun a b => reunits_of (APO.makes a b).yields (apo_u a b),
    reunits_of Awesome.appends.yields awesome_u,
    fun a b d => reunits_of (MACD.makes a b d).yields (macd_u a b d),
    fun p => reunits_of (ATR.makes p).yields (atr_u p),
    fun a b => reunits_of (XO.makes a b).yields (xo_u a b),
    fun p s1 s2 l1 l2 => reunits_of (Vegas.makes p s1 s2 l1 l2).yields (vegas_u p s1 s2 l1 l2),
    fun a b s => reunits_of (LRC.makes a b s).yields (lrc_u a b s),
    fun p => reunits_of (Donchian.appends p).yields (donchian_u p),
    fun p => reunits_of (Keltner.appends p).yields (keltner_u p),
    fun a b d => reunits_of (Ichimoku.appends a b d).yields (ichi_u a b d),
    fun p => reunits_of (Camarilla.makes p).yields (cam_u p),
    fun p m => reunits_of (ST.makes p m true).yields (st_u p m),
    fun p a f => reunits_of (PPST.makes p a f).yields (ppst_u p a f),
    fun p a => reunits_of (UT.makes p a).yields (ut_u p a),
    fun ps n => reunits_of (BP.makes ps n).yields (bp_u ps n)⟩

/-- C124: percentages and ratios do not depend on the units. -/
theorem C124_ratios (u v : ℤ) :
    (∀ p, Reunits u v (Stoch (F := F53) p).toIndicator id) ∧
    (∀ p, Reunits u v (Williams (F := F53) p).toIndicator id) ∧
    (∀ a b d, Reunits u v (PPO (F := F53) a b d).toIndicator id) ∧
    (∀ a b, Reunits u v (Projection (F := F53) a b).toIndicator id) ∧
    (∀ a b, Reunits u v (CCIi (F := F53) a b).toIndicator id) ∧
    (∀ p, Reunits u v (AiCCI (F := F53) p).toIndicator id) ∧
    (∀ a b, Reunits u v (ADX (F := F53) a b) id) ∧
    (∀ p, Reunits u v (Vortex (F := F53) p) id) ∧
    (∀ a b s d k, Reunits u v (Heat (F := F53) a b s d k).toIndicator id) ∧
    Reunits u v (Rev (F := F53)) id ∧
    (∀ p, Reunits u v (CMF (F := F53) p) id) ∧
    Reunits u v (NVI (F := F53)) id ∧
    (∀ a b, Reunits u v (VolOsc (F := F53) a b) id) :=
  ⟨fun p => reunits_of (Stoch.appends p).yields (stoch_u p),
    fun p => reunits_of (Williams.appends p).yields (williams_u p),
    fun a b d => reunits_of (PPO.appends a b d).yields (ppo_u a b d),
    fun a b => reunits_of (Projection.appends a b).yields (proj_u a b),
    fun a b => reunits_of (CCIi.appends a b).yields (cci_u a b),
    fun p => reunits_of (AiCCI.appends p).yields (aicci_u p),
    fun a b => reunits_of (ADX.makes a b).yields (adx_u a b),
    fun p => reunits_of (Vortex.appends p).yields (vortex_u p),
    fun a b s d k => reunits_of (Heat.appends a b s d k).yields (heat_u a b s d k),
    reunits_of Rev.makes.yields rev_u,
    fun p => reunits_of (CMF.appends p).yields (cmf_u p),
    reunits_of NVI.appends.yields nvi_u,
    fun a b => reunits_of (VolOsc.makes a b).yields (volosc_u a b)⟩

/-- C124: cumulative volume lines are multiplied by the volume factor, the force index by both factors. -/
theorem C124_volume_lines (u v : ℤ) :
    Reunits u v (AD (F := F53)) (fun r => { r with value := F53.shift v r.value }) ∧
    (∀ a b, Reunits u v (Chaikin a b).toIndicator fun r => ⟨r.time, F53.shift v r.value, F53.shift v r.ad⟩) ∧
    Reunits u v (OBV (F := F53)) (fun r => { r with value := F53.shift v r.value }) ∧
    (∀ p, Reunits u v (VPT p) fun r => { r with value := F53.shift v r.value }) ∧
    (∀ p, Reunits u v (Force p) fun r => { r with value := F53.shift v (F53.shift u r.value) }) :=
  ⟨reunits_of AD.appends.yields ad_u,
    fun a b => reunits_of (Chaikin.appends a b).yields (chaikin_u a b),
    reunits_of OBV.grows.yields obv_u,
    fun p => reunits_of (VPT.appends p).yields (vpt_u p),
    fun p => reunits_of (Force.appends p).yields (force_u p)⟩

/-- C124: the signals of the crossing and channel strategies do not depend on the units. -/
theorem C124_signals (u v : ℤ) :
    (∀ a b, SignalsReunit u v (APO (F := F53) a b)) ∧
    SignalsReunit u v (Awesome (F := F53)) ∧
    (∀ a b, SignalsReunit u v (Chaikin (F := F53) a b)) ∧
    (∀ a b d, SignalsReunit u v (PPO (F := F53) a b d)) ∧
    (∀ p, SignalsReunit u v (Stoch (F := F53) p)) ∧
    (∀ p, SignalsReunit u v (Williams (F := F53) p)) ∧
    (∀ a b, SignalsReunit u v (Projection (F := F53) a b)) ∧
    (∀ a b d, SignalsReunit u v (MACD (F := F53) a b d)) ∧
    (∀ a b, SignalsReunit u v (CCIi (F := F53) a b)) ∧
    (∀ p, SignalsReunit u v (AiCCI (F := F53) p)) ∧
    (∀ a b s d k, SignalsReunit u v (Heat (F := F53) a b s d k)) ∧
    (∀ p m, SignalsReunit u v (ST (F := F53) p m true)) ∧
    (∀ p a f, SignalsReunit u v (PPST (F := F53) p a f)) ∧
    (∀ p a, SignalsReunit u v (UT (F := F53) p a)) ∧
    (∀ p, SignalsReunit u v (Donchian (F := F53) p)) ∧
    (∀ p, SignalsReunit u v (Keltner (F := F53) p)) ∧
    (∀ a b d, SignalsReunit u v (Ichimoku (F := F53) a b d)) ∧
    (∀ p s1 s2 l1 l2, SignalsReunit u v (Vegas (F := F53) p s1 s2 l1 l2)) ∧
    (∀ a b, SignalsReunit u v (XO (F := F53) a b)) :=
  ⟨fun a b => signalsReunit_of (APO.signals a b) fun x i => pairSide_congr (apo_u a b x) zeroRule_u i,
    signalsReunit_of Awesome.signals fun x i => pairSide_congr (awesome_u x) zeroRule_u i,
    fun a b => signalsReunit_of (Chaikin.signals a b) fun x i => pairSide_congr (φ := fun r =>
      ⟨r.time, F53.shift v r.value, F53.shift v r.ad⟩) (chaikin_u a b x) (fun r q => chaikinRule_u (τ := shiftScaling v) r q) i,
    fun a b d => signalsReunit_of (PPO.signals a b d) fun x i => pairSide_congr (ppo_u a b d x) (φ := id) (fun _ _ => rfl) i,
    fun p => signalsReunit_of (Stoch.signals p) fun x i => pairSide_congr (stoch_u p x) (φ := id) (fun _ _ => rfl) i,
    fun p => signalsReunit_of (Williams.signals p) fun x i => pairSide_congr (williams_u p x) (φ := id) (fun _ _ => rfl) i,
    fun a b => signalsReunit_of (Projection.signals a b) fun x i => pairSide_congr (proj_u a b x) (φ := id) (fun _ _ => rfl) i,
    fun a b d => signalsReunit_of (MACD.signals a b d) fun x i => pairSide_congr (φ := fun r =>
      ⟨r.time, F53.shift u r.dif, F53.shift u r.dea, F53.shift u r.macd⟩) (macd_u a b d x)
      (fun r q => macdRule_u (σ := shiftScaling u) r q) i,
    fun a b => signalsReunit_of (CCIi.signals a b) fun x i => pairSide_congr (cci_u a b x) (φ := id) (fun _ _ => rfl) i,
    fun p => signalsReunit_of (AiCCI.signals p) fun x i => pairSide_congr (aicci_u p x) (φ := id) (fun _ _ => rfl) i,
    fun a b s d k => signalsReunit_of (Heat.signals a b s d k) fun x i =>
      pairSide_congr (heat_u a b s d k x) (φ := id) (fun _ _ => rfl) i,
    fun p m => signalsReunit_of (ST.signals p m true) fun x i => pairSide_congr (st_u p m x) stRule_u i,
    fun p a f => signalsReunit_of (PPST.signals p a f) fun x i => pairSide_congr (ppst_u p a f x) stRule_u i,
    fun p a => signalsReunit_of (UT.signals p a) fun x i => pairSide_congr (φ := fun r =>
      ⟨r.time, F53.shift u r.close, F53.shift u r.value⟩) (ut_u p a x) (fun r q => utRule_u (σ := shiftScaling u) r q) i,
    fun p => signalsReunit_of (Donchian.signals p) fun x i => closeSide_congr (donchian_u p x) cl_unit bandRule_u i,
    fun p => signalsReunit_of (Keltner.signals p) fun x i => closeSide_congr (keltner_u p x) cl_unit bandRule_u i,
    fun a b d => signalsReunit_of (Ichimoku.signals a b d) (ichiSide_u a b d),
    fun p s1 s2 l1 l2 => signalsReunit_of (Vegas.signals p s1 s2 l1 l2) (vegasSide_u p s1 s2 l1 l2),
    fun a b => signalsReunit_of (XO.signals a b) fun x i => by rw [xoF_u]⟩


/-- C124 for `Rma`. -/
theorem C124_rma (u v : ℤ) (p : Int) : Reunits u v (RMA p) fun r => { r with value := F53.shift u r.value } := by
  intro it
  obtain ⟨x, hx⟩ := candles_tab it
  have hx' : (reunit u v it).candles =
      tab it.candles.length fun j => inUnit (shiftScaling u) (shiftScaling v) (x j) := by
    conv_lhs => rw [reunit, hx]
    simp only [tab, List.map_map]; rfl
  have e1 : (RMA p).data it = .ok (List.replicate it.candles.length Rec.zero ++ tab it.candles.length (RMA.out p x)) := by
    simp [Indicator.data, Indicator.new, Obj.GetData, Obj.read, Obj.ensure, Obj.Calculation, RMA.run p hx []]
  have e2 : (RMA p).data (reunit u v it) = .ok (List.replicate it.candles.length Rec.zero ++
      tab it.candles.length (RMA.out p fun j => inUnit (shiftScaling u) (shiftScaling v) (x j))) := by
    simp [Indicator.data, Indicator.new, Obj.GetData, Obj.read, Obj.ensure, Obj.Calculation, RMA.run p hx' []]
  have hz : F53.shift u (fl 0 : F53) = fl 0 := (shiftScaling u).zero
  have hr : ∀ i, rmaF p (cl fun j => inUnit (shiftScaling u) (shiftScaling v) (x j)) i = F53.shift u (rmaF p (cl x) i) :=
    rmaF_scale (shiftScaling u) cl_unit p
  rw [e1, e2]
  simp only [Except.toOption, Option.map_some, List.map_append, List.map_replicate, Rec.zero, hz, tab, List.map_map]
  congr 2
  exact List.map_congr_left fun i _ => by simp only [RMA.out, hr, Function.comp]; rfl

/-! ## Square roots -/

/-- The arithmetic with this square root and with any other functions. -/
@[reducible] def math53 (atan round : F53 → F53) (pow : F53 → F53 → F53) (deg : F53) : GoMath F53 :=
  { (inferInstance : GoFloat F53) with sqrt := sqrt53, atan := atan, pow := pow, round := round, degPerRad := deg }

theorem sqrt53_shift (k : ℤ) (a : F53) : sqrt53 (F53.shift k (F53.shift k a)) = F53.shift k (sqrt53 a) := by
  have hp : (0 : ℚ) < 2 ^ k := zpow_pos (by norm_num) k
  cases a with
  | nan => rfl
  | inf s => cases s <;> rfl
  | fin s q =>
    simp only [F53.shift, sqrt53]
    by_cases h : q ≤ 0
    · rw [if_pos h, if_pos (mul_nonpos_of_nonneg_of_nonpos hp.le (mul_nonpos_of_nonneg_of_nonpos hp.le h))]
      simp only [mul_zero]
    · have h := not_le.mp h
      rw [if_neg (not_le.mpr h), if_neg (not_le.mpr (mul_pos hp (mul_pos hp h)))]
      cases s
      · simp only [Bool.false_eq_true, if_false, F53.fin.injEq, true_and]
        have h4 : (4 : ℚ) ^ ((binade q + 2 * k) / 2) = 2 ^ k * 2 ^ k * 4 ^ (binade q / 2) := by
          rw [show (binade q + 2 * k) / 2 = binade q / 2 + k by omega, zpow_add₀ (by norm_num), ← mul_zpow,
            show (2 : ℚ) * 2 = 4 by norm_num, mul_comm]
        rw [root53, root53, binade_shift k (mul_pos hp h), binade_shift k h, add_assoc, ← two_mul]
        simp only [h4]
        rw [← mul_assoc, mul_div_mul_left _ _ (mul_pos hp hp).ne', show (binade q + 2 * k) / 2 = k + binade q / 2 by omega,
          zpow_add₀ (by norm_num)]
        ring
      · rfl

/-- The square root of float64 is that of `F53`, whatever the operand. -/
theorem C124_sqrt_agrees (x : B64) : F53.of x.sqrt = sqrt53 (F53.of x) := sqrt53_of x

section math
variable (atan round : F53 → F53) (pow : F53 → F53 → F53) (deg : F53)

/-- C124 for the indicators with square roots and powers. -/
theorem C124_math (u v : ℤ) :
    (∀ p k, Reunits u v (@Boll _ (math53 atan round pow deg) p k).toIndicator (bollIn (F53.shift u))) ∧
    (∀ p, Reunits u v (@Ulcer _ (math53 atan round pow deg) p) id) ∧
    (∀ p, Reunits u v (@MFI _ (math53 atan round pow deg) p).toIndicator id) ∧
    (∀ p k, SignalsReunit u v (@Boll _ (math53 atan round pow deg) p k)) ∧
    (∀ p, SignalsReunit u v (@MFI _ (math53 atan round pow deg) p)) :=
  letI := math53 atan round pow deg
  ⟨fun p k => reunits_of (Boll.makes p k).yields (boll_u (σ := shiftScaling u) (sqrt53_shift u) p),
    fun p => reunits_of (Ulcer.appends p).yields (ulcer_u p),
    fun p => reunits_of (MFI.appends p).yields (mfi_u p),
    fun p k => signalsReunit_of (Boll.signals p k) fun x i =>
      closeSide_congr (boll_u (σ := shiftScaling u) (sqrt53_shift u) p x) cl_unit bollRule_u i,
    fun p => signalsReunit_of (MFI.signals p) fun x i => pairSide_congr (mfi_u p x) (φ := id) (fun _ _ => rfl) i⟩

end math

theorem normal64_of_val {x : B64} {q : ℚ} (h : x.val = .fin q) (hq : (2 : ℚ) ^ (-1022 : ℤ) < q) : Normal64 x := by
  cases x with
  | nan => cases h
  | inf s => cases s <;> cases h
  | fin s p hp =>
    have e : B64.signed s p = q := by injection h
    cases s
    · exact ⟨false, p, hp, rfl, by rw [B64.signed, if_neg (by decide)] at e; rwa [e]⟩
    · rw [B64.signed, if_pos rfl] at e
      have := hp.nonneg
      have : (0 : ℚ) < 2 ^ (-1022 : ℤ) := zpow_pos (by norm_num) _
      linarith

theorem Normal64.finite {x : B64} (h : Normal64 x) : Finite64 x :=
  let ⟨s, q, hr, e, _⟩ := h
  ⟨s, q, hr, e⟩

/-- A candle in `F53`. -/
def candle53 (o h l c v : ℚ) : Candle F53 :=
  { Candle.zero 0 with open_ := lit o, high := lit h, low := lit l, close := lit c, volume := lit v }

/-- Three quotes at prices that are no binary fractions. -/
def quotes53 : Item F53 :=
  { exchange := "", interval := 0, symbol := "", code := "",
    candles := [candle53 0.1 0.3 0.1 0.2 7, candle53 0.2 0.7 0.2 0.7 9, candle53 0.7 0.7 0.5 0.6 8] }

/-- A concrete case: the averages of the quotes in units of 1/1024 are 1024 times as large, and not all 0; the operands
0.1 and 3 meet the hypotheses of `C124_agrees`. -/
example : ((EMA 2).data (reunit 10 3 quotes53)).toOption =
      ((EMA 2).data quotes53).toOption.map (List.map fun r => { r with value := F53.shift 10 r.value }) ∧
    (((EMA 2).data quotes53).toOption.map (List.map fun r => r.value)) ≠ some [.fin false 0, .fin false 0, .fin false 0] ∧
    Normal64 (lit 0.1 *. fl 3) ∧ Finite64 (lit 0.1 +. fl 3 : B64) := by
  refine ⟨(C124_price_lines 10 3).2.2.1 2 quotes53, by decide +kernel, ?_, ?_⟩
  · exact normal64_of_val (q := 1351079888211149 / 2 ^ 52) (by decide +kernel) (by norm_num; decide +kernel)
  · exact (normal64_of_val (q := 6980579422424269 / 2 ^ 51) (by decide +kernel) (by norm_num; decide +kernel)).finite

/-! ## Other units -/

/-- C124 is false for units that are no powers of two: a market flat at 0.1 is sold, quoted in tenths it is not. Both
prices are float64 and one is exactly ten times the other as far as float64 can tell. -/
theorem C124_tenfold_refuted :
    (fl 10 *. lit 0.1 : B64).val = (lit 1 : B64).val ∧
    (XO 12 25).signals (item64 (hlc64 [(0.1, 0.1, 0.1), (0.1, 0.1, 0.1)])) = .ok [Hold, Sell] ∧
    (XO 12 25).signals (item64 (hlc64 [(1, 1, 1), (1, 1, 1)])) = .ok [Hold, Hold] := by
  refine ⟨?_, ?_, ?_⟩ <;> decide +kernel

/-- Nor does it hold in float64 where numbers become too small: the average of 1 and 2, in units of `2^-1074`, is 2. -/
theorem C124_underflow_refuted :
    ((EMA 2).data (item64 (hlc64 [(1, 1, 1), (2, 2, 2)]))).map (List.map fun r => r.value.val) =
      .ok [.fin 1, .fin (7505999378950827 / 2 ^ 52)] ∧
    ((EMA 2).data (item64 (hlc64 [(1 / 2 ^ 1074, 1 / 2 ^ 1074, 1 / 2 ^ 1074), (2 / 2 ^ 1074, 2 / 2 ^ 1074, 2 / 2 ^ 1074)]))).map
      (List.map fun r => r.value.val) = .ok [.fin (1 / 2 ^ 1074), .fin (2 / 2 ^ 1074)] := by
  refine ⟨?_, ?_⟩ <;> decide +kernel

end Verif.Props
