import Verif.Ind.SmcInv

/-!
# The loop of `SmartMoneyConcepts.Calculation`
-/

set_option linter.unusedSectionVars false

namespace Verif.Ind.Smc
open Verif Verif.Klines Verif.Ta Verif.Ind GoFloat

variable {F : Type} [GoFloat F] {L : Type} [LinearOrder L] (o : OrdKey F L)

/-- A remembered swing high: the high of a candle that is above the highs of the `len` candles after it, all of them
before `k`. Or none yet. -/
def Top (h : Nat → F) (len k : Nat) (y : F) (ix : Int) : Prop :=
  (y = fl 0 ∧ ix = 0) ∨ ∃ m : Nat, m + len < k ∧ ix = m ∧ y = h m ∧ PeakAt o h len m

/-- A remembered swing low. -/
def Btm (l : Nat → F) (len k : Nat) (y : F) (ix : Int) : Prop :=
  (y = fl 0 ∧ ix = 0) ∨ ∃ m : Nat, m + len < k ∧ ix = m ∧ y = l m ∧ DipAt o l len m

/-- A line at candle `j` for an upward break: it starts at a swing high at or before `j` and ends at a candle at or
after `j`, before `k`, whose close crosses over it. Or no line. -/
def UpLine (h c : Nat → F) (len k j : Nat) (y : F) : Prop :=
  y = fl 0 ∨ ∃ m i : Nat, m ≤ j ∧ j ≤ i ∧ i < k ∧ 1 ≤ i ∧ m + len ≤ i ∧ y = h m ∧ PeakAt o h len m ∧
    (y <. c i) = true ∧ (c (i - 1) <. y) = true

/-- A line at candle `j` for a downward break. -/
def DownLine (l c : Nat → F) (len k j : Nat) (y : F) : Prop :=
  y = fl 0 ∨ ∃ m i : Nat, m ≤ j ∧ j ≤ i ∧ i < k ∧ 1 ≤ i ∧ m + len ≤ i ∧ y = l m ∧ DipAt o l len m ∧
    (c i <. y) = true ∧ (y <. c (i - 1)) = true

/-- At candle `i` the close crosses over a swing high that is already confirmed. -/
def UpBreak (h c : Nat → F) (len i : Nat) : Prop :=
  1 ≤ i ∧ ∃ m, m + len ≤ i ∧ PeakAt o h len m ∧ (h m <. c i) = true ∧ (c (i - 1) <. h m) = true

/-- At candle `i` the close crosses under a swing low that is already confirmed. -/
def DownBreak (l c : Nat → F) (len i : Nat) : Prop :=
  1 ≤ i ∧ ∃ m, m + len ≤ i ∧ DipAt o l len m ∧ (c i <. l m) = true ∧ (l m <. c (i - 1)) = true

/-- No close is below 0. -/
def NonNeg (c : Nat → F) : Prop := ∀ j, (c j <. fl 0) = false

/-- A line of an upward change of character: as `UpLine`, and before the break there was a downward one. -/
def ChochUp (h l c : Nat → F) (len k j : Nat) (y : F) : Prop :=
  y = fl 0 ∨ ∃ m i : Nat, m ≤ j ∧ j ≤ i ∧ i < k ∧ 1 ≤ i ∧ m + len ≤ i ∧ y = h m ∧ PeakAt o h len m ∧
    (y <. c i) = true ∧ (c (i - 1) <. y) = true ∧ (NonNeg c → ∃ i', i' < i ∧ DownBreak o l c len i')

/-- A line of a downward change of character: as `DownLine`, and before the break there was an upward one (of a swing
of length `len'`). -/
def ChochDown (h l c : Nat → F) (len len' k j : Nat) (y : F) : Prop :=
  y = fl 0 ∨ ∃ m i : Nat, m ≤ j ∧ j ≤ i ∧ i < k ∧ 1 ≤ i ∧ m + len ≤ i ∧ y = l m ∧ DipAt o l len m ∧
    (c i <. y) = true ∧ (y <. c (i - 1)) = true ∧ (NonNeg c → ∃ i', i' < i ∧ UpBreak o h c len' i')

/-- A line at candle `j` for equal highs or lows: at the value of a candle at or before `j`. -/
def EqLine (f : Nat → F) (j : Nat) (y : F) : Prop := y = fl 0 ∨ ∃ m : Nat, m ≤ j ∧ (f m ==. y) = true

/-- A remembered pivot. -/
def EqPt (f : Nat → F) (k : Nat) (y : F) (ix : Int) : Prop :=
  (y = fl 0 ∧ ix = 0) ∨ ∃ m : Nat, m < k ∧ ix = m ∧ (f m ==. y) = true

/-- All lines of a record. -/
structure Lines (h l c : Nat → F) (S k j : Nat) (r : Rec F) : Prop where
  highBosShort : UpLine o h c 5 k j r.highBosShort
  highChochShort : ChochUp o h l c 5 k j r.highChochShort
  highBosLong : UpLine o h c S k j r.highBosLong
  highChochLong : ChochUp o h l c S k j r.highChochLong
  lowBosShort : DownLine o l c 5 k j r.lowBosShort
  lowChochShort : ChochDown o h l c 5 5 k j r.lowChochShort
  lowBosLong : DownLine o l c S k j r.lowBosLong
  lowChochLong : ChochDown o h l c S 5 k j r.lowChochLong
  eqh : EqLine h j r.eqh
  eql : EqLine l j r.eql

/-- The trailing high: unless it is still labelled with candle 0, it is the high of its candle and the highest high
since. -/
def TrailUp (h : Nat → F) (S k : Nat) (y : F) (ix : Int) : Prop :=
  o.good y ∧ ∃ m : Nat, m < k ∧ ix = m ∧ (k ≤ S → m = 0) ∧
    (m = 0 ∨ (o.key y = o.key (h m) ∧ ∀ j, m ≤ j → j < k → o.key (h j) ≤ o.key y))

/-- The trailing low. -/
def TrailDn (l : Nat → F) (S k : Nat) (y : F) (ix : Int) : Prop :=
  o.good y ∧ ∃ m : Nat, m < k ∧ ix = m ∧ (k ≤ S → m = 0) ∧
    (m = 0 ∨ (o.key y = o.key (l m) ∧ ∀ j, m ≤ j → j < k → o.key y ≤ o.key (l j)))

/-- A reported high level: unless it carries the time of candle 0, it is the high of the candle whose time it carries
and the highest high from there to some candle `i`. -/
def LevelUp (h : Nat → F) (t : Nat → Int) (k : Nat) (lv : Level F) : Prop :=
  lv = .zero ∨ ∃ m i : Nat, m ≤ i ∧ i < k ∧ lv.time = t m ∧
    (m = 0 ∨ (o.key lv.value = o.key (h m) ∧ ∀ j, m ≤ j → j ≤ i → o.key (h j) ≤ o.key lv.value))

/-- A reported low level. -/
def LevelDn (l : Nat → F) (t : Nat → Int) (k : Nat) (lv : Level F) : Prop :=
  lv = .zero ∨ ∃ m i : Nat, m ≤ i ∧ i < k ∧ lv.time = t m ∧
    (m = 0 ∨ (o.key lv.value = o.key (l m) ∧ ∀ j, m ≤ j → j ≤ i → o.key lv.value ≤ o.key (l j)))

/-- Blocks made of candles before `k`, no two with the same direction and time. -/
def Blocks (x : Nat → Candle F) (k : Nat) (l : List (Block F)) : Prop :=
  Uniq l ∧ ∀ b ∈ l, ∃ m, m < k ∧ b = blockOf x b.isTop m

/-- The invariant of the loop: swing points, lines, levels and blocks come from candles before `k`; the records from
`max 1 S` up to before `t` carry the time of their candle. -/
structure Core (n : Nat) (x : Nat → Candle F) (S k t : Nat) (e : Obj F) (v : Loc F) : Prop where
  len : e.data.length = n
  time : ∀ (j : Nat) r, e.data[j]? = some r → r.time = if 1 ≤ j ∧ S ≤ j ∧ j < t then ti x j else zeroUnix
  lines : ∀ (j : Nat) r, e.data[j]? = some r → Lines o (hi x) (lo x) (cl x) S k j r
  top : Top o (hi x) S k v.topY v.topX
  btm : Btm o (lo x) S k v.btmY v.btmX
  itop : Top o (hi x) 5 k v.itopY v.itopX
  ibtm : Btm o (lo x) 5 k v.ibtmY v.ibtmX
  eqTop : EqPt (hi x) k v.eqPrevTop v.eqTopX
  eqBtm : EqPt (lo x) k v.eqPrevBtm v.eqBtmX
  bull : Blocks x k e.bull
  bear : Blocks x k e.bear
  idxBull : ∃ p : Nat, p < k ∧ e.idxBull = p
  idxBear : ∃ p : Nat, p < k ∧ e.idxBear = p
  strongHigh : LevelUp o (hi x) (ti x) k e.strongHigh
  weakHigh : LevelUp o (hi x) (ti x) k e.weakHigh
  strongLow : LevelDn o (lo x) (ti x) k e.strongLow
  weakLow : LevelDn o (lo x) (ti x) k e.weakLow
  itrendUp : 0 < v.itrend → NonNeg (cl x) → ∃ i, i < k ∧ UpBreak o (hi x) (cl x) 5 i
  itrendDn : v.itrend < 0 → NonNeg (cl x) → ∃ i, i < k ∧ DownBreak o (lo x) (cl x) 5 i
  trendDn : v.trend < 0 → NonNeg (cl x) → ∃ i, i < k ∧ DownBreak o (lo x) (cl x) S i

section mono
variable {o}

theorem Top.mono {h : Nat → F} {len k k' : Nat} {y : F} {ix : Int} (hk : k ≤ k') (H : Top o h len k y ix) :
    Top o h len k' y ix := by
  rcases H with H | ⟨m, h1, h2⟩
  · exact .inl H
  · exact .inr ⟨m, by omega, h2⟩

theorem Btm.mono {h : Nat → F} {len k k' : Nat} {y : F} {ix : Int} (hk : k ≤ k') (H : Btm o h len k y ix) :
    Btm o h len k' y ix := by
  rcases H with H | ⟨m, h1, h2⟩
  · exact .inl H
  · exact .inr ⟨m, by omega, h2⟩

theorem UpLine.mono {h c : Nat → F} {len k k' j : Nat} {y : F} (hk : k ≤ k') (H : UpLine o h c len k j y) :
    UpLine o h c len k' j y := by
  rcases H with H | ⟨m, i, h1, h2, h3, h4⟩
  · exact .inl H
  · exact .inr ⟨m, i, h1, h2, by omega, h4⟩

theorem DownLine.mono {h c : Nat → F} {len k k' j : Nat} {y : F} (hk : k ≤ k') (H : DownLine o h c len k j y) :
    DownLine o h c len k' j y := by
  rcases H with H | ⟨m, i, h1, h2, h3, h4⟩
  · exact .inl H
  · exact .inr ⟨m, i, h1, h2, by omega, h4⟩

theorem ChochUp.mono {h l c : Nat → F} {len k k' j : Nat} {y : F} (hk : k ≤ k') (H : ChochUp o h l c len k j y) :
    ChochUp o h l c len k' j y := by
  rcases H with H | ⟨m, i, h1, h2, h3, h4⟩
  · exact .inl H
  · exact .inr ⟨m, i, h1, h2, by omega, h4⟩

theorem ChochDown.mono {h l c : Nat → F} {len len' k k' j : Nat} {y : F} (hk : k ≤ k')
    (H : ChochDown o h l c len len' k j y) : ChochDown o h l c len len' k' j y := by
  rcases H with H | ⟨m, i, h1, h2, h3, h4⟩
  · exact .inl H
  · exact .inr ⟨m, i, h1, h2, by omega, h4⟩

theorem Lines.mono {h l c : Nat → F} {S k k' j : Nat} {r : Rec F} (hk : k ≤ k') (H : Lines o h l c S k j r) :
    Lines o h l c S k' j r :=
  ⟨H.1.mono hk, H.2.mono hk, H.3.mono hk, H.4.mono hk, H.5.mono hk, H.6.mono hk, H.7.mono hk, H.8.mono hk, H.9, H.10⟩

theorem EqPt.mono {f : Nat → F} {k k' : Nat} {y : F} {ix : Int} (hk : k ≤ k') (H : EqPt f k y ix) : EqPt f k' y ix := by
  rcases H with H | ⟨m, h1, h2⟩
  · exact .inl H
  · exact .inr ⟨m, by omega, h2⟩

theorem LevelUp.mono {h : Nat → F} {t : Nat → Int} {k k' : Nat} {lv : Level F} (hk : k ≤ k')
    (H : LevelUp o h t k lv) : LevelUp o h t k' lv := by
  rcases H with H | ⟨m, i, h1, h2, h3⟩
  · exact .inl H
  · exact .inr ⟨m, i, h1, by omega, h3⟩

theorem LevelDn.mono {h : Nat → F} {t : Nat → Int} {k k' : Nat} {lv : Level F} (hk : k ≤ k')
    (H : LevelDn o h t k lv) : LevelDn o h t k' lv := by
  rcases H with H | ⟨m, i, h1, h2, h3⟩
  · exact .inl H
  · exact .inr ⟨m, i, h1, by omega, h3⟩

theorem Blocks.mono {x : Nat → Candle F} {k k' : Nat} {l : List (Block F)} (hk : k ≤ k') (H : Blocks x k l) :
    Blocks x k' l :=
  ⟨H.1, fun b hb => by obtain ⟨m, h1, h2⟩ := H.2 b hb; exact ⟨m, by omega, h2⟩⟩

theorem Blocks.sub {x : Nat → Candle F} {k : Nat} {l l' : List (Block F)} (hs : l'.Sublist l) (H : Blocks x k l) :
    Blocks x k l' := ⟨H.1.sublist hs, fun b hb => H.2 b (hs.subset hb)⟩

theorem Blocks.add {x : Nat → Candle F} {k m : Nat} {l : List (Block F)} (b : Bool) (hm : m < k) (H : Blocks x k l) :
    Blocks x k (Ind.Add l (blockOf x b m)) := by
  refine ⟨H.1.add _, fun c hc => ?_⟩
  rcases mem_add hc with rfl | hc
  · exact ⟨m, hm, rfl⟩
  · exact H.2 c hc

theorem Core.mono {n : Nat} {x : Nat → Candle F} {S k k' t : Nat} {e : Obj F} {v : Loc F} (hk : k ≤ k')
    (H : Core o n x S k t e v) : Core o n x S k' t e v where
  len := H.len
  time := H.time
  lines := fun j r hr => (H.lines j r hr).mono hk
  top := H.top.mono hk
  btm := H.btm.mono hk
  itop := H.itop.mono hk
  ibtm := H.ibtm.mono hk
  eqTop := H.eqTop.mono hk
  eqBtm := H.eqBtm.mono hk
  bull := H.bull.mono hk
  bear := H.bear.mono hk
  idxBull := by obtain ⟨p, h1, h2⟩ := H.idxBull; exact ⟨p, by omega, h2⟩
  idxBear := by obtain ⟨p, h1, h2⟩ := H.idxBear; exact ⟨p, by omega, h2⟩
  strongHigh := H.strongHigh.mono hk
  weakHigh := H.weakHigh.mono hk
  strongLow := H.strongLow.mono hk
  weakLow := H.weakLow.mono hk
  itrendUp := fun h1 h2 => by obtain ⟨i, h3, h4⟩ := H.itrendUp h1 h2; exact ⟨i, by omega, h4⟩
  itrendDn := fun h1 h2 => by obtain ⟨i, h3, h4⟩ := H.itrendDn h1 h2; exact ⟨i, by omega, h4⟩
  trendDn := fun h1 h2 => by obtain ⟨i, h3, h4⟩ := H.trendDn h1 h2; exact ⟨i, by omega, h4⟩

end mono

variable {o}

/-! ## Swing points and trailing levels -/

/-- What `swings` returns, as far as the loop needs it. -/
def TopEvent (o : OrdKey F L) (h : Nat → F) (len i : Nat) (y : F) : Prop :=
  y = fl 0 ∨ (len ≤ i ∧ y = h (i - len) ∧ PeakAt o h len (i - len))

/-- What `swings` returns, as far as the loop needs it. -/
def BtmEvent (o : OrdKey F L) (l : Nat → F) (len i : Nat) (y : F) : Prop :=
  y = fl 0 ∨ (len ≤ i ∧ y = l (i - len) ∧ DipAt o l len (i - len))

theorem TopEvent.top {h : Nat → F} {len i : Nat} {y : F} (H : TopEvent o h len i y) (ho : Laws o)
    (hy : (!(y ==. fl 0)) = true) {w : Int} (hw : w = (i : Int) - len) : Top o h len (i + 1) y w := by
  rcases H with rfl | ⟨h1, h2, h3⟩
  · rw [eq_self o ho.zero] at hy; cases hy
  · exact .inr ⟨i - len, by omega, by omega, h2, h3⟩

theorem BtmEvent.btm {h : Nat → F} {len i : Nat} {y : F} (H : BtmEvent o h len i y) (ho : Laws o)
    (hy : (!(y ==. fl 0)) = true) {w : Int} (hw : w = (i : Int) - len) : Btm o h len (i + 1) y w := by
  rcases H with rfl | ⟨h1, h2, h3⟩
  · rw [eq_self o ho.zero] at hy; cases hy
  · exact .inr ⟨i - len, by omega, by omega, h2, h3⟩

/-- One step of the trailing high. -/
theorem TrailUp.step (ho : Laws o) {h : Nat → F} {S i : Nat} {y : F} {ix : Int} (hg : ∀ j, j ≤ i → o.good (h j))
    (hS : S ≤ i) (H : TrailUp o h S i y ix) {top : F} (ht : TopEvent o h S i top) (y1 y2 : F) (x2 : Int)
    (e1 : y1 = if y ==. fl 0 then h i else y)
    (e2 : y2 = GoFloat.max (h i) (if !(top ==. fl 0) then top else y1))
    (e3 : x2 = if y2 ==. h i then (i : Int) else if !(top ==. fl 0) then (i : Int) - S else ix) :
    TrailUp o h S (i + 1) y2 x2 := by
  have gi := hg i le_rfl
  have g1 : o.good y1 := by rw [e1]; split <;> [exact gi; exact H.1]
  have gt : o.good (if !(top ==. fl 0) then top else y1) := by
    split
    · rcases ht with rfl | ⟨h1, h2, _⟩
      · exact ho.zero
      · rw [h2]; exact hg _ (by omega)
    · exact g1
  have g2 : o.good y2 := by rw [e2]; exact max_good ho gi gt
  refine ⟨g2, ?_⟩
  have hik : o.key (h i) ≤ o.key y2 := by rw [e2]; exact ho.max_left gi gt
  have hrk : o.key (if !(top ==. fl 0) then top else y1) ≤ o.key y2 := by rw [e2]; exact ho.max_right gi gt
  by_cases hc : (y2 ==. h i) = true
  · rw [if_pos hc] at e3
    refine ⟨i, by omega, e3, fun h => by omega, .inr ⟨(o.eq_iff g2 gi).mp hc, fun j h1 h2 => ?_⟩⟩
    rw [show j = i by omega]; exact hik
  · rw [if_neg hc] at e3
    have hne : ¬ (o.key y2 = o.key (h i)) := fun h => hc ((o.eq_iff g2 gi).mpr h)
    have hy2 : y2 = if !(top ==. fl 0) then top else y1 := by
      rcases ho.max_or gi gt with h | h
      · rw [← e2] at h; rw [h] at hne; exact absurd rfl hne
      · rw [← e2] at h; exact h
    by_cases htop : (!(top ==. fl 0)) = true
    · rw [if_pos htop] at e3 hy2
      rcases ht with h0 | ⟨h1, h2, h3⟩
      · rw [h0, eq_self o ho.zero] at htop; cases htop
      · refine ⟨i - S, by omega, by omega, fun h => by omega, .inr ⟨by rw [hy2, h2], fun j j1 j2 => ?_⟩⟩
        rw [hy2, h2]
        by_cases hj : j = i - S
        · rw [hj]
        · have := h3 (j - (i - S)) (by omega) (by omega)
          rw [show i - S + (j - (i - S)) = j by omega] at this
          exact this.le
    · rw [if_neg htop] at e3 hy2
      have hy : y1 = y := by
        rw [e1]
        split
        · next hz =>
          rw [if_pos hz] at e1
          rw [hy2, e1] at hne; exact absurd rfl hne
        · rfl
      obtain ⟨m, m1, m2, m3, m4⟩ := H.2
      refine ⟨m, by omega, by rw [e3, m2], fun h => by omega, ?_⟩
      rcases m4 with m4 | ⟨m4, m5⟩
      · exact .inl m4
      · refine .inr ⟨by rw [hy2, hy, m4], fun j j1 j2 => ?_⟩
        by_cases hj : j = i
        · rw [hj]; exact hik
        · rw [hy2, hy]; exact m5 j j1 (by omega)

/-- One step of the trailing low. -/
theorem TrailDn.step (ho : Laws o) {h : Nat → F} {S i : Nat} {y : F} {ix : Int} (hg : ∀ j, j ≤ i → o.good (h j))
    (hS : S ≤ i) (H : TrailDn o h S i y ix) {top : F} (ht : BtmEvent o h S i top) (y1 y2 : F) (x2 : Int)
    (e1 : y1 = if y ==. fl 0 then h i else y)
    (e2 : y2 = GoFloat.min (h i) (if !(top ==. fl 0) then top else y1))
    (e3 : x2 = if y2 ==. h i then (i : Int) else if !(top ==. fl 0) then (i : Int) - S else ix) :
    TrailDn o h S (i + 1) y2 x2 := by
  have gi := hg i le_rfl
  have g1 : o.good y1 := by rw [e1]; split <;> [exact gi; exact H.1]
  have gt : o.good (if !(top ==. fl 0) then top else y1) := by
    split
    · rcases ht with rfl | ⟨h1, h2, _⟩
      · exact ho.zero
      · rw [h2]; exact hg _ (by omega)
    · exact g1
  have g2 : o.good y2 := by rw [e2]; exact min_good ho gi gt
  refine ⟨g2, ?_⟩
  have hik : o.key y2 ≤ o.key (h i) := by rw [e2]; exact ho.min_left gi gt
  by_cases hc : (y2 ==. h i) = true
  · rw [if_pos hc] at e3
    refine ⟨i, by omega, e3, fun h => by omega, .inr ⟨(o.eq_iff g2 gi).mp hc, fun j h1 h2 => ?_⟩⟩
    rw [show j = i by omega]; exact hik
  · rw [if_neg hc] at e3
    have hne : ¬ (o.key y2 = o.key (h i)) := fun h => hc ((o.eq_iff g2 gi).mpr h)
    have hy2 : y2 = if !(top ==. fl 0) then top else y1 := by
      rcases ho.min_or gi gt with h | h
      · rw [← e2] at h; rw [h] at hne; exact absurd rfl hne
      · rw [← e2] at h; exact h
    by_cases htop : (!(top ==. fl 0)) = true
    · rw [if_pos htop] at e3 hy2
      rcases ht with h0 | ⟨h1, h2, h3⟩
      · rw [h0, eq_self o ho.zero] at htop; cases htop
      · refine ⟨i - S, by omega, by omega, fun h => by omega, .inr ⟨by rw [hy2, h2], fun j j1 j2 => ?_⟩⟩
        rw [hy2, h2]
        by_cases hj : j = i - S
        · rw [hj]
        · have := h3 (j - (i - S)) (by omega) (by omega)
          rw [show i - S + (j - (i - S)) = j by omega] at this
          exact this.le
    · rw [if_neg htop] at e3 hy2
      have hy : y1 = y := by
        rw [e1]
        split
        · next hz =>
          rw [if_pos hz] at e1
          rw [hy2, e1] at hne; exact absurd rfl hne
        · rfl
      obtain ⟨m, m1, m2, m3, m4⟩ := H.2
      refine ⟨m, by omega, by rw [e3, m2], fun h => by omega, ?_⟩
      rcases m4 with m4 | ⟨m4, m5⟩
      · exact .inl m4
      · refine .inr ⟨by rw [hy2, hy, m4], fun j j1 j2 => ?_⟩
        by_cases hj : j = i
        · rw [hj]; exact hik
        · rw [hy2, hy]; exact m5 j j1 (by omega)

/-- The trailing levels of the local variables. -/
def Trails (o : OrdKey F L) (x : Nat → Candle F) (S k : Nat) (v : Loc F) : Prop :=
  TrailUp o (hi x) S k v.trailUp v.trailUpX ∧ TrailDn o (lo x) S k v.trailDn v.trailDnX

theorem takeSwings_core (ho : Laws o) {n S i : Nat} {x : Nat → Candle F} {e : Obj F} {v : Loc F} {top btm itop ibtm : F}
    (hh : ∀ j, j ≤ i → o.good (hi x j)) (hl : ∀ j, j ≤ i → o.good (lo x j)) (hS : S ≤ i)
    (H : Core o n x S i i e v) (HT : Trails o x S i v)
    (h1 : TopEvent o (hi x) S i top) (h2 : BtmEvent o (lo x) S i btm)
    (h3 : TopEvent o (hi x) 5 i itop) (h4 : BtmEvent o (lo x) 5 i ibtm) :
    Core o n x S (i + 1) i e (takeSwings S i (hi x i) (lo x i) top btm itop ibtm (trailInit (hi x i) (lo x i) v)) ∧
    Trails o x S (i + 1) (takeSwings S i (hi x i) (lo x i) top btm itop ibtm (trailInit (hi x i) (lo x i) v)) := by
  have H' := H.mono (Nat.le_succ i)
  generalize hv : takeSwings S i (hi x i) (lo x i) top btm itop ibtm (trailInit (hi x i) (lo x i) v) = w
  have f1 : w.topY = (if !(top ==. fl 0) then top else v.topY) := by
    rw [← hv]; simp only [takeSwings, trailInit, apply_ite Loc.topY, ite_self]
  have f1' : w.topX = (if !(top ==. fl 0) then (i : Int) - S else v.topX) := by
    rw [← hv]; simp only [takeSwings, trailInit, apply_ite Loc.topX, ite_self]
  have f2 : w.itopY = (if !(itop ==. fl 0) then itop else v.itopY) := by
    rw [← hv]; simp only [takeSwings, trailInit, apply_ite Loc.itopY, ite_self]
  have f2' : w.itopX = (if !(itop ==. fl 0) then (i : Int) - 5 else v.itopX) := by
    rw [← hv]; simp only [takeSwings, trailInit, apply_ite Loc.itopX, ite_self]
  have f3 : w.btmY = (if !(btm ==. fl 0) then btm else v.btmY) := by
    rw [← hv]; simp only [takeSwings, trailInit, apply_ite Loc.btmY, ite_self]
  have f3' : w.btmX = (if !(btm ==. fl 0) then (i : Int) - S else v.btmX) := by
    rw [← hv]; simp only [takeSwings, trailInit, apply_ite Loc.btmX, ite_self]
  have f4 : w.ibtmY = (if !(ibtm ==. fl 0) then ibtm else v.ibtmY) := by
    rw [← hv]; simp only [takeSwings, trailInit, apply_ite Loc.ibtmY, ite_self]
  have f4' : w.ibtmX = (if !(ibtm ==. fl 0) then (i : Int) - 5 else v.ibtmX) := by
    rw [← hv]; simp only [takeSwings, trailInit, apply_ite Loc.ibtmX, ite_self]
  have f5 : w.eqPrevTop = v.eqPrevTop := by
    rw [← hv]; simp only [takeSwings, trailInit, apply_ite Loc.eqPrevTop, ite_self]
  have f6 : w.eqTopX = v.eqTopX := by
    rw [← hv]; simp only [takeSwings, trailInit, apply_ite Loc.eqTopX, ite_self]
  have f7 : w.eqPrevBtm = v.eqPrevBtm := by
    rw [← hv]; simp only [takeSwings, trailInit, apply_ite Loc.eqPrevBtm, ite_self]
  have f8 : w.eqBtmX = v.eqBtmX := by
    rw [← hv]; simp only [takeSwings, trailInit, apply_ite Loc.eqBtmX, ite_self]
  have f9 : w.trend = v.trend := by
    rw [← hv]; simp only [takeSwings, trailInit, apply_ite Loc.trend, ite_self]
  have f10 : w.itrend = v.itrend := by
    rw [← hv]; simp only [takeSwings, trailInit, apply_ite Loc.itrend, ite_self]
  have u1 : w.trailUp = GoFloat.max (hi x i) (if !(top ==. fl 0) then top else if v.trailUp ==. fl 0 then hi x i else v.trailUp) := by
    rw [← hv]; simp only [takeSwings, trailInit, apply_ite Loc.trailUp, ite_self]
  have u2 : w.trailUpX = if w.trailUp ==. hi x i then (i : Int) else if !(top ==. fl 0) then (i : Int) - S else v.trailUpX := by
    rw [u1, ← hv]; simp only [takeSwings, trailInit, apply_ite Loc.trailUpX, apply_ite Loc.trailUp, ite_self]
  have d1 : w.trailDn = GoFloat.min (lo x i) (if !(btm ==. fl 0) then btm else if v.trailDn ==. fl 0 then lo x i else v.trailDn) := by
    rw [← hv]; simp only [takeSwings, trailInit, apply_ite Loc.trailDn, ite_self]
  have d2 : w.trailDnX = if w.trailDn ==. lo x i then (i : Int) else if !(btm ==. fl 0) then (i : Int) - S else v.trailDnX := by
    rw [d1, ← hv]; simp only [takeSwings, trailInit, apply_ite Loc.trailDnX, apply_ite Loc.trailDn, ite_self]
  refine ⟨{ H' with top := ?_, btm := ?_, itop := ?_, ibtm := ?_, eqTop := ?_, eqBtm := ?_, itrendUp := ?_, itrendDn := ?_, trendDn := ?_ },
    HT.1.step ho hh hS h1 _ _ _ rfl u1 u2, HT.2.step ho hl hS h2 _ _ _ rfl d1 d2⟩
  · rw [f1, f1']
    split
    · next h => exact h1.top ho h rfl
    · exact H'.top
  · rw [f3, f3']
    split
    · next h => exact h2.btm ho h rfl
    · exact H'.btm
  · rw [f2, f2']
    split
    · next h => exact h3.top ho h rfl
    · exact H'.itop
  · rw [f4, f4']
    split
    · next h => exact h4.btm ho h rfl
    · exact H'.ibtm
  · rw [f5, f6]; exact H'.eqTop
  · rw [f7, f8]; exact H'.eqBtm
  · rw [f10]; exact H'.itrendUp
  · rw [f10]; exact H'.itrendDn
  · rw [f9]; exact H'.trendDn

/-! ## Breaks -/

theorem CrossOver_at {i : Nat} (c : Nat → F) (y : F) (h1 : 1 ≤ i) :
    CrossOver (tab (i + 1) c) y = .ok ((y <. c i) && (c (i - 1) <. y)) := by
  have e1 : ((i + 1 : Nat) : Int) - 1 = (i : Int) := by omega
  have e2 : ((i + 1 : Nat) : Int) - 2 = ((i - 1 : Nat) : Int) := by omega
  unfold CrossOver
  simp only [tab_length, e1, e2, idx_tab (show i < i + 1 by omega), idx_tab (show i - 1 < i + 1 by omega), ok_bind,
    GoFloat.gt]
  by_cases h : (y <. c i) = true
  · simp [h]
  · simp [h]

theorem CrossUnder_at {i : Nat} (c : Nat → F) (y : F) (h1 : 1 ≤ i) :
    CrossUnder (tab (i + 1) c) y = .ok ((c i <. y) && (y <. c (i - 1))) := by
  have e1 : ((i + 1 : Nat) : Int) - 1 = (i : Int) := by omega
  have e2 : ((i + 1 : Nat) : Int) - 2 = ((i - 1 : Nat) : Int) := by omega
  unfold CrossUnder
  simp only [tab_length, e1, e2, idx_tab (show i < i + 1 by omega), idx_tab (show i - 1 < i + 1 by omega), ok_bind,
    GoFloat.gt]
  by_cases h : (c i <. y) = true
  · simp [h]
  · simp [h]

theorem obCoord_ok (ho : Laws o) {n index loc : Nat} {x : Nat → Candle F} (a : Nat → F) {e : Obj F} {ty : Int}
    (hty : ty = 1 ∨ ty = 2) (b : Bool) (list : List (Block F)) (hn : index < n) (h1 : 1 ≤ index) (hloc : loc ≤ index)
    (hh : ∀ j, j ≤ index → o.good (hi x j)) (hl : ∀ j, j ≤ index → o.good (lo x j)) {p0 : Nat} (hp0 : e.prev ty = p0)
    (hp0' : p0 ≤ index) :
    ∃ p m : Nat, p ≤ index ∧ m ≤ index ∧
      obCoord (ohlcOf n x) e b index loc (tab (index + 1) (hi x)) (tab (index + 1) (lo x)) (tab (index + 1) a)
        list ty = .ok (e.setPrev ty p, Ind.Add list (blockOf x b m)) := by
  cases b
  · obtain ⟨p, m, h3, h4, h5, _⟩ := obBottom ho hty list hn h1 hloc hl hp0 hp0'
    exact ⟨p, m, h3, h4, h5⟩
  · obtain ⟨p, m, h3, h4, h5, _⟩ := obTop ho hty list hn h1 hloc hh hp0 hp0'
    exact ⟨p, m, h3, h4, h5⟩

theorem Top.index {h : Nat → F} {len i : Nat} {y : F} {ix : Int} (H : Top o h len (i + 1) y ix) :
    ∃ m : Nat, m ≤ i ∧ ix = m ∧ (y = fl 0 ∨ (m + len ≤ i ∧ y = h m ∧ PeakAt o h len m)) := by
  rcases H with ⟨h1, h2⟩ | ⟨m, h1, h2, h3⟩
  · exact ⟨0, by omega, h2, .inl h1⟩
  · exact ⟨m, by omega, h2, .inr ⟨by omega, h3⟩⟩

theorem Btm.index {h : Nat → F} {len i : Nat} {y : F} {ix : Int} (H : Btm o h len (i + 1) y ix) :
    ∃ m : Nat, m ≤ i ∧ ix = m ∧ (y = fl 0 ∨ (m + len ≤ i ∧ y = h m ∧ DipAt o h len m)) := by
  rcases H with ⟨h1, h2⟩ | ⟨m, h1, h2, h3⟩
  · exact ⟨0, by omega, h2, .inl h1⟩
  · exact ⟨m, by omega, h2, .inr ⟨by omega, h3⟩⟩

/-- Drawing a line keeps the invariant when the new values are justified. -/
theorem Core.drawn {n : Nat} {x : Nat → Candle F} {S k t : Nat} {e : Obj F} {v : Loc F} (H : Core o n x S k t e v)
    {lo' hi' : Nat} {put : Rec F → Rec F} {d : List (Rec F)} (hlen : d.length = e.data.length)
    (hd : ∀ j : Nat, d[j]? = if lo' ≤ j ∧ j ≤ hi' then e.data[j]?.map put else e.data[j]?)
    (ht : ∀ r, (put r).time = r.time)
    (hp : ∀ (j : Nat) r, lo' ≤ j → j ≤ hi' → Lines o (hi x) (lo x) (cl x) S k j r →
      Lines o (hi x) (lo x) (cl x) S k j (put r)) :
    Core o n x S k t { e with data := d } v :=
  { H with
    len := hlen.trans H.len
    time := by
      intro j r hr
      have hr : d[j]? = some r := hr
      rw [hd j] at hr
      split at hr
      · obtain ⟨r0, h1, h2⟩ := Option.map_eq_some_iff.mp hr
        rw [← h2, ht]; exact H.time j r0 h1
      · exact H.time j r hr
    lines := by
      intro j r hr
      have hr : d[j]? = some r := hr
      rw [hd j] at hr
      split at hr
      · next hj =>
        obtain ⟨r0, h1, h2⟩ := Option.map_eq_some_iff.mp hr
        rw [← h2]; exact hp j r0 hj.1 hj.2 (H.lines j r0 h1)
      · exact H.lines j r hr }

/-- The conditions on the series at one candle. -/
structure At (o : OrdKey F L) (n : Nat) (x : Nat → Candle F) (i : Nat) : Prop where
  one : 1 ≤ i
  lt : i < n
  hi : ∀ j, j ≤ i → o.good (hi x j)
  lo : ∀ j, j ≤ i → o.good (lo x j)
  cl : ∀ j, j ≤ i → o.good (cl x j)

theorem At.not_both {n i len len' : Nat} {x : Nat → Candle F} (A : At o n x i)
    (h1 : UpBreak o (Ind.hi x) (Ind.cl x) len i) (h2 : DownBreak o (Ind.lo x) (Ind.cl x) len' i) : False := by
  obtain ⟨_, m, hm, _, a1, a2⟩ := h1
  obtain ⟨_, q, hq, _, b1, b2⟩ := h2
  have gm := A.hi m (by omega)
  have gq := A.lo q (by omega)
  have g1 := A.cl i le_rfl
  have g2 := A.cl (i - 1) (by omega)
  have c1 := (o.lt_iff gm g1).mp a1
  have c2 := (o.lt_iff g2 gm).mp a2
  have c3 := (o.lt_iff g1 gq).mp b1
  have c4 := (o.lt_iff gq g2).mp b2
  exact absurd (c2.trans c1) (c3.trans c4).asymm

/-- The local variables a break stage leaves alone. -/
def SameTrail (v w : Loc F) : Prop :=
  w.trailUp = v.trailUp ∧ w.trailUpX = v.trailUpX ∧ w.trailDn = v.trailDn ∧ w.trailDnX = v.trailDnX

theorem Trails.of {x : Nat → Candle F} {S k : Nat} {v w : Loc F} (H : Trails o x S k v) (h : SameTrail v w) :
    Trails o x S k w := by
  obtain ⟨h1, h2, h3, h4⟩ := h
  unfold Trails; rw [h1, h2, h3, h4]; exact H

theorem highShort_core (ho : Laws o) {n S i : Nat} {x : Nat → Candle F} (A : At o n x i) (a : Nat → F) {e : Obj F}
    {v : Loc F} (H : Core o n x S (i + 1) i e v) :
    ∃ e' v', highShort (ohlcOf n x) (tab (i + 1) (cl x)) (tab (i + 1) (hi x)) (tab (i + 1) (lo x)) (tab (i + 1) a) i
      (e, v) = .ok (e', v') ∧ Core o n x S (i + 1) i e' v' ∧ SameTrail v v' := by
  unfold highShort
  simp only [CrossOver_at _ _ A.one, ok_bind]
  split
  · next hc =>
    obtain ⟨m, hm, hmx, hjust⟩ := H.itop.index
    have hline : ∀ j, m ≤ j → j ≤ i → UpLine o (hi x) (cl x) 5 (i + 1) j v.itopY := by
      intro j j1 j2
      rcases hjust with h | ⟨h1, h2, h3⟩
      · exact .inl h
      · simp only [Bool.and_eq_true] at hc
        exact .inr ⟨m, i, j1, j2, by omega, A.one, h1, h2, h3, hc.1.1.1, hc.1.1.2⟩
    have hbr : NonNeg (cl x) → UpBreak o (hi x) (cl x) 5 i := by
      intro hn
      rcases hjust with h | ⟨h1, h2, h3⟩
      · exfalso; rw [h] at hc; rw [hn (i - 1)] at hc; simp at hc
      · simp only [Bool.and_eq_true] at hc
        exact ⟨A.one, m, h1, h3, by rw [← h2]; exact hc.1.1.1, by rw [← h2]; exact hc.1.1.2⟩
    have hchoch : v.itrend < 0 → ∀ j, m ≤ j → j ≤ i → ChochUp o (hi x) (lo x) (cl x) 5 (i + 1) j v.itopY := by
      intro ht j j1 j2
      rcases hjust with h | ⟨h1, h2, h3⟩
      · exact .inl h
      · have hc' := hc
        simp only [Bool.and_eq_true] at hc'
        refine .inr ⟨m, i, j1, j2, by omega, A.one, h1, h2, h3, hc'.1.1.1, hc'.1.1.2, fun hn => ?_⟩
        obtain ⟨i', hi', hb⟩ := H.itrendDn ht hn
        refine ⟨i', ?_, hb⟩
        by_contra hge
        have : i' = i := by omega
        subst this
        exact A.not_both (hbr hn) hb
    rw [hmx]
    obtain ⟨d, hd, hcore⟩ : ∃ d, (if decide (v.itrend < 0) = true then
          draw e.data (m : Int) i (fun r => { r with highChochShort := v.itopY })
        else draw e.data (m : Int) i (fun r => { r with highBosShort := v.itopY })) = .ok d ∧
        Core o n x S (i + 1) i { e with data := d } v := by
      split
      · next htr =>
        have htr := of_decide_eq_true htr
        obtain ⟨d, h1, h2, h3⟩ := draw_spec (data := e.data) (lo := m) (hi := i)
          (fun r => { r with highChochShort := v.itopY }) (by rw [H.len]; exact A.lt)
        exact ⟨d, h1, H.drawn h2 h3 (fun r => rfl) fun j r j1 j2 hr => { hr with highChochShort := hchoch htr j j1 j2 }⟩
      · obtain ⟨d, h1, h2, h3⟩ := draw_spec (data := e.data) (lo := m) (hi := i)
          (fun r => { r with highBosShort := v.itopY }) (by rw [H.len]; exact A.lt)
        exact ⟨d, h1, H.drawn h2 h3 (fun r => rfl) fun j r j1 j2 hr => { hr with highBosShort := hline j j1 j2 }⟩
    obtain ⟨p0, hp0, hp0'⟩ := H.idxBull
    obtain ⟨p, q, hp, hq, hob⟩ := obCoord_ok ho a (e := { e with data := d }) (ty := 1) (.inl rfl) false e.bull A.lt A.one
      hm A.hi A.lo (p0 := p0) (by simpa [Obj.prev] using hp0') (by omega)
    refine ⟨{ ({ e with data := d } : Obj F).setPrev 1 p with bull := Ind.Add e.bull (blockOf x false q) },
      { v with itopCross := false, itrend := 1, itopX := (m : Int) },
      by rw [hd, ok_bind, hob, ok_bind]; rfl, ?_, ⟨rfl, rfl, rfl, rfl⟩⟩
    exact { hcore with
      itop := by rw [← hmx]; exact hcore.itop
      itrendUp := fun _ hn => ⟨i, by omega, hbr hn⟩
      itrendDn := fun h => absurd h (show ¬ ((1 : Int) < 0) by decide)
      bull := H.bull.add false (by omega)
      idxBull := ⟨p, by omega, rfl⟩ }
  · exact ⟨e, v, rfl, H, rfl, rfl, rfl, rfl⟩

theorem highLong_core (ho : Laws o) {n S i : Nat} {x : Nat → Candle F} (A : At o n x i) (a : Nat → F) {e : Obj F}
    {v : Loc F} (H : Core o n x S (i + 1) i e v) :
    ∃ e' v', highLong (ohlcOf n x) (tab (i + 1) (cl x)) (tab (i + 1) (hi x)) (tab (i + 1) (lo x)) (tab (i + 1) a) i
      (e, v) = .ok (e', v') ∧ Core o n x S (i + 1) i e' v' ∧ SameTrail v v' := by
  unfold highLong
  simp only [CrossOver_at _ _ A.one, ok_bind]
  split
  · next hc =>
    obtain ⟨m, hm, hmx, hjust⟩ := H.top.index
    have hline : ∀ j, m ≤ j → j ≤ i → UpLine o (hi x) (cl x) S (i + 1) j v.topY := by
      intro j j1 j2
      rcases hjust with h | ⟨h1, h2, h3⟩
      · exact .inl h
      · simp only [Bool.and_eq_true] at hc
        exact .inr ⟨m, i, j1, j2, by omega, A.one, h1, h2, h3, hc.1.1, hc.1.2⟩
    have hbr : NonNeg (cl x) → UpBreak o (hi x) (cl x) S i := by
      intro hn
      rcases hjust with h | ⟨h1, h2, h3⟩
      · exfalso; rw [h] at hc; rw [hn (i - 1)] at hc; simp at hc
      · simp only [Bool.and_eq_true] at hc
        exact ⟨A.one, m, h1, h3, by rw [← h2]; exact hc.1.1, by rw [← h2]; exact hc.1.2⟩
    have hchoch : v.trend < 0 → ∀ j, m ≤ j → j ≤ i → ChochUp o (hi x) (lo x) (cl x) S (i + 1) j v.topY := by
      intro ht j j1 j2
      rcases hjust with h | ⟨h1, h2, h3⟩
      · exact .inl h
      · have hc' := hc
        simp only [Bool.and_eq_true] at hc'
        refine .inr ⟨m, i, j1, j2, by omega, A.one, h1, h2, h3, hc'.1.1, hc'.1.2, fun hn => ?_⟩
        obtain ⟨i', hi', hb⟩ := H.trendDn ht hn
        refine ⟨i', ?_, hb⟩
        by_contra hge
        have : i' = i := by omega
        subst this
        exact A.not_both (hbr hn) hb
    rw [hmx]
    obtain ⟨d, hd, hcore⟩ : ∃ d, (if decide (v.trend < 0) = true then
          draw e.data (m : Int) i (fun r => { r with highChochLong := v.topY })
        else draw e.data (m : Int) i (fun r => { r with highBosLong := v.topY })) = .ok d ∧
        Core o n x S (i + 1) i { e with data := d } v := by
      split
      · next htr =>
        have htr := of_decide_eq_true htr
        obtain ⟨d, h1, h2, h3⟩ := draw_spec (data := e.data) (lo := m) (hi := i)
          (fun r => { r with highChochLong := v.topY }) (by rw [H.len]; exact A.lt)
        exact ⟨d, h1, H.drawn h2 h3 (fun r => rfl) fun j r j1 j2 hr => { hr with highChochLong := hchoch htr j j1 j2 }⟩
      · obtain ⟨d, h1, h2, h3⟩ := draw_spec (data := e.data) (lo := m) (hi := i)
          (fun r => { r with highBosLong := v.topY }) (by rw [H.len]; exact A.lt)
        exact ⟨d, h1, H.drawn h2 h3 (fun r => rfl) fun j r j1 j2 hr => { hr with highBosLong := hline j j1 j2 }⟩
    obtain ⟨p0, hp0, hp0'⟩ := H.idxBear
    obtain ⟨p, q, hp, hq, hob⟩ := obCoord_ok ho a (e := { e with data := d }) (ty := 2) (.inr rfl) false e.bear A.lt A.one
      hm A.hi A.lo (p0 := p0) (by simpa [Obj.prev] using hp0') (by omega)
    refine ⟨{ ({ e with data := d } : Obj F).setPrev 2 p with bear := Ind.Add e.bear (blockOf x false q) },
      { v with topCross := false, trend := 1, topX := (m : Int) },
      by rw [hd, ok_bind, hob, ok_bind]; rfl, ?_, ⟨rfl, rfl, rfl, rfl⟩⟩
    exact { hcore with
      top := by rw [← hmx]; exact hcore.top
      trendDn := fun h => absurd h (show ¬ ((1 : Int) < 0) by decide)
      bear := H.bear.add false (by omega)
      idxBear := ⟨p, by omega, rfl⟩ }
  · exact ⟨e, v, rfl, H, rfl, rfl, rfl, rfl⟩

theorem lowShort_core (ho : Laws o) {n S i : Nat} {x : Nat → Candle F} (A : At o n x i) (a : Nat → F) {e : Obj F}
    {v : Loc F} (H : Core o n x S (i + 1) i e v) :
    ∃ e' v', lowShort (ohlcOf n x) (tab (i + 1) (cl x)) (tab (i + 1) (hi x)) (tab (i + 1) (lo x)) (tab (i + 1) a) i
      (e, v) = .ok (e', v') ∧ Core o n x S (i + 1) i e' v' ∧ SameTrail v v' := by
  unfold lowShort
  simp only [CrossUnder_at _ _ A.one, ok_bind]
  split
  · next hc =>
    obtain ⟨m, hm, hmx, hjust⟩ := H.ibtm.index
    have hline : ∀ j, m ≤ j → j ≤ i → DownLine o (lo x) (cl x) 5 (i + 1) j v.ibtmY := by
      intro j j1 j2
      rcases hjust with h | ⟨h1, h2, h3⟩
      · exact .inl h
      · simp only [Bool.and_eq_true] at hc
        exact .inr ⟨m, i, j1, j2, by omega, A.one, h1, h2, h3, hc.1.1.1, hc.1.1.2⟩
    have hbr : NonNeg (cl x) → DownBreak o (lo x) (cl x) 5 i := by
      intro hn
      rcases hjust with h | ⟨h1, h2, h3⟩
      · exfalso; rw [h] at hc; rw [hn i] at hc; simp at hc
      · simp only [Bool.and_eq_true] at hc
        exact ⟨A.one, m, h1, h3, by rw [← h2]; exact hc.1.1.1, by rw [← h2]; exact hc.1.1.2⟩
    have hchoch : 0 < v.itrend → ∀ j, m ≤ j → j ≤ i → ChochDown o (hi x) (lo x) (cl x) 5 5 (i + 1) j v.ibtmY := by
      intro ht j j1 j2
      rcases hjust with h | ⟨h1, h2, h3⟩
      · exact .inl h
      · have hc' := hc
        simp only [Bool.and_eq_true] at hc'
        refine .inr ⟨m, i, j1, j2, by omega, A.one, h1, h2, h3, hc'.1.1.1, hc'.1.1.2, fun hn => ?_⟩
        obtain ⟨i', hi', hb⟩ := H.itrendUp ht hn
        refine ⟨i', ?_, hb⟩
        by_contra hge
        have : i' = i := by omega
        subst this
        exact A.not_both hb (hbr hn)
    rw [hmx]
    obtain ⟨d, hd, hcore⟩ : ∃ d, (if decide (v.itrend > 0) = true then
          draw e.data (m : Int) i (fun r => { r with lowChochShort := v.ibtmY })
        else draw e.data (m : Int) i (fun r => { r with lowBosShort := v.ibtmY })) = .ok d ∧
        Core o n x S (i + 1) i { e with data := d } v := by
      split
      · next htr =>
        have htr := of_decide_eq_true htr
        obtain ⟨d, h1, h2, h3⟩ := draw_spec (data := e.data) (lo := m) (hi := i)
          (fun r => { r with lowChochShort := v.ibtmY }) (by rw [H.len]; exact A.lt)
        exact ⟨d, h1, H.drawn h2 h3 (fun r => rfl) fun j r j1 j2 hr => { hr with lowChochShort := hchoch htr j j1 j2 }⟩
      · obtain ⟨d, h1, h2, h3⟩ := draw_spec (data := e.data) (lo := m) (hi := i)
          (fun r => { r with lowBosShort := v.ibtmY }) (by rw [H.len]; exact A.lt)
        exact ⟨d, h1, H.drawn h2 h3 (fun r => rfl) fun j r j1 j2 hr => { hr with lowBosShort := hline j j1 j2 }⟩
    obtain ⟨p0, hp0, hp0'⟩ := H.idxBull
    obtain ⟨p, q, hp, hq, hob⟩ := obCoord_ok ho a (e := { e with data := d }) (ty := 1) (.inl rfl) true e.bull A.lt A.one
      hm A.hi A.lo (p0 := p0) (by simpa [Obj.prev] using hp0') (by omega)
    refine ⟨{ ({ e with data := d } : Obj F).setPrev 1 p with bull := Ind.Add e.bull (blockOf x true q) },
      { v with ibtmCross := false, itrend := -1, ibtmX := (m : Int) },
      by rw [hd, ok_bind, hob, ok_bind]; rfl, ?_, ⟨rfl, rfl, rfl, rfl⟩⟩
    exact { hcore with
      ibtm := by rw [← hmx]; exact hcore.ibtm
      itrendUp := fun h => absurd h (show ¬ ((0 : Int) < -1) by decide)
      itrendDn := fun _ hn => ⟨i, by omega, hbr hn⟩
      bull := H.bull.add true (by omega)
      idxBull := ⟨p, by omega, rfl⟩ }
  · exact ⟨e, v, rfl, H, rfl, rfl, rfl, rfl⟩

theorem lowLong_core (ho : Laws o) {n S i : Nat} {x : Nat → Candle F} (A : At o n x i) (a : Nat → F) {e : Obj F}
    {v : Loc F} (H : Core o n x S (i + 1) i e v) :
    ∃ e' v', lowLong (ohlcOf n x) (tab (i + 1) (cl x)) (tab (i + 1) (hi x)) (tab (i + 1) (lo x)) (tab (i + 1) a) i
      (e, v) = .ok (e', v') ∧ Core o n x S (i + 1) i e' v' ∧ SameTrail v v' := by
  unfold lowLong
  simp only [CrossUnder_at _ _ A.one, ok_bind]
  split
  · next hc =>
    obtain ⟨m, hm, hmx, hjust⟩ := H.btm.index
    have hline : ∀ j, m ≤ j → j ≤ i → DownLine o (lo x) (cl x) S (i + 1) j v.btmY := by
      intro j j1 j2
      rcases hjust with h | ⟨h1, h2, h3⟩
      · exact .inl h
      · simp only [Bool.and_eq_true] at hc
        exact .inr ⟨m, i, j1, j2, by omega, A.one, h1, h2, h3, hc.1.1, hc.1.2⟩
    have hbr : NonNeg (cl x) → DownBreak o (lo x) (cl x) S i := by
      intro hn
      rcases hjust with h | ⟨h1, h2, h3⟩
      · exfalso; rw [h] at hc; rw [hn i] at hc; simp at hc
      · simp only [Bool.and_eq_true] at hc
        exact ⟨A.one, m, h1, h3, by rw [← h2]; exact hc.1.1, by rw [← h2]; exact hc.1.2⟩
    have hchoch : 0 < v.itrend → ∀ j, m ≤ j → j ≤ i → ChochDown o (hi x) (lo x) (cl x) S 5 (i + 1) j v.btmY := by
      intro ht j j1 j2
      rcases hjust with h | ⟨h1, h2, h3⟩
      · exact .inl h
      · have hc' := hc
        simp only [Bool.and_eq_true] at hc'
        refine .inr ⟨m, i, j1, j2, by omega, A.one, h1, h2, h3, hc'.1.1, hc'.1.2, fun hn => ?_⟩
        obtain ⟨i', hi', hb⟩ := H.itrendUp ht hn
        refine ⟨i', ?_, hb⟩
        by_contra hge
        have : i' = i := by omega
        subst this
        exact A.not_both hb (hbr hn)
    rw [hmx]
    obtain ⟨d, hd, hcore⟩ : ∃ d, (if decide (v.itrend > 0) = true then
          draw e.data (m : Int) i (fun r => { r with lowChochLong := v.btmY })
        else draw e.data (m : Int) i (fun r => { r with lowBosLong := v.btmY })) = .ok d ∧
        Core o n x S (i + 1) i { e with data := d } v := by
      split
      · next htr =>
        have htr := of_decide_eq_true htr
        obtain ⟨d, h1, h2, h3⟩ := draw_spec (data := e.data) (lo := m) (hi := i)
          (fun r => { r with lowChochLong := v.btmY }) (by rw [H.len]; exact A.lt)
        exact ⟨d, h1, H.drawn h2 h3 (fun r => rfl) fun j r j1 j2 hr => { hr with lowChochLong := hchoch htr j j1 j2 }⟩
      · obtain ⟨d, h1, h2, h3⟩ := draw_spec (data := e.data) (lo := m) (hi := i)
          (fun r => { r with lowBosLong := v.btmY }) (by rw [H.len]; exact A.lt)
        exact ⟨d, h1, H.drawn h2 h3 (fun r => rfl) fun j r j1 j2 hr => { hr with lowBosLong := hline j j1 j2 }⟩
    obtain ⟨p0, hp0, hp0'⟩ := H.idxBear
    obtain ⟨p, q, hp, hq, hob⟩ := obCoord_ok ho a (e := { e with data := d }) (ty := 2) (.inr rfl) true e.bear A.lt A.one
      hm A.hi A.lo (p0 := p0) (by simpa [Obj.prev] using hp0') (by omega)
    refine ⟨{ ({ e with data := d } : Obj F).setPrev 2 p with bear := Ind.Add e.bear (blockOf x true q) },
      { v with btmCross := false, trend := -1, btmX := (m : Int) },
      by rw [hd, ok_bind, hob, ok_bind]; rfl, ?_, ⟨rfl, rfl, rfl, rfl⟩⟩
    exact { hcore with
      btm := by rw [← hmx]; exact hcore.btm
      trendDn := fun _ hn => ⟨i, by omega, hbr hn⟩
      bear := H.bear.add true (by omega)
      idxBear := ⟨p, by omega, rfl⟩ }
  · exact ⟨e, v, rfl, H, rfl, rfl, rfl, rfl⟩

/-! ## Equal highs and lows, levels -/

theorem pivotHighF_val (ho : Laws o) {p i : Nat} {f : Nat → F} (h : (!(pivotHighF p p f i ==. fl 0)) = true) :
    p + p ≤ i ∧ (f (i - p) ==. pivotHighF p p f i) = true := by
  have h0 : pivotHighF p p f i ≠ fl 0 := by
    intro h'; rw [h', eq_self o ho.zero] at h; cases h
  by_cases hi : i < p + p
  · exact absurd (by rw [pivotHighF, if_pos hi]) h0
  · refine ⟨by omega, ?_⟩
    rw [pivotHighF, if_neg hi] at h0 ⊢
    revert h0
    cases (pivotTree p p f i).max with
    | none => intro h0; exact absurd rfl h0
    | some m =>
      intro h0
      by_cases hm : (f (i - p) ==. m) = true
      · simp only [hm, if_true]
      · simp only [hm] at h0; exact absurd rfl h0

theorem pivotLowF_val (ho : Laws o) {p i : Nat} {f : Nat → F} (h : (!(pivotLowF p p f i ==. fl 0)) = true) :
    p + p ≤ i ∧ (f (i - p) ==. pivotLowF p p f i) = true := by
  have h0 : pivotLowF p p f i ≠ fl 0 := by
    intro h'; rw [h', eq_self o ho.zero] at h; cases h
  by_cases hi : i < p + p
  · exact absurd (by rw [pivotLowF, if_pos hi]) h0
  · refine ⟨by omega, ?_⟩
    rw [pivotLowF, if_neg hi] at h0 ⊢
    revert h0
    cases (pivotTree p p f i).min with
    | none => intro h0; exact absurd rfl h0
    | some m =>
      intro h0
      by_cases hm : (f (i - p) ==. m) = true
      · simp only [hm, if_true]
      · simp only [hm] at h0; exact absurd rfl h0

theorem equals_core (ho : Laws o) {n S i : Nat} {x : Nat → Candle F} {g : Cfg} (hg : 0 ≤ g.conf) (A : At o n x i) (a : F)
    {e : Obj F} {v : Loc F} (H : Core o n x S (i + 1) i e v) :
    ∃ e' v', equals g (tab (i + 1) (hi x)) (tab (i + 1) (lo x)) a i (e, v) = .ok (e', v') ∧
      Core o n x S (i + 1) i e' v' ∧ SameTrail v v' ∧ e'.bull = e.bull ∧ e'.bear = e.bear := by
  have e1 : ((i + 1 : Nat) : Int) - 1 = (i : Int) := by omega
  obtain ⟨p, hp⟩ : ∃ p : Nat, g.conf = p := ⟨g.conf.toNat, by omega⟩
  have hpn : g.conf.toNat = p := by omega
  unfold equals
  simp only [PivotHigh_ok _ _ hg, PivotLow_ok _ _ hg, ok_bind, tab_length, e1, idx_tab (show i < i + 1 by omega), hpn]
  obtain ⟨e1, v1, h1, H1, T1, B1, B1'⟩ : ∃ e' v', (if (!(pivotHighF p p (hi x) i ==. fl 0)) = true then do
      let data ← (if GoFloat.max (pivotHighF p p (hi x) i) v.eqPrevTop <.
          (GoFloat.min (pivotHighF p p (hi x) i) v.eqPrevTop +. a *. fl g.thr /. fl 10) then
        draw e.data v.eqTopX (i - g.conf) (fun r => { r with eqh := v.eqPrevTop }) else pure e.data)
      pure ({ e with data := data }, { v with eqPrevTop := pivotHighF p p (hi x) i, eqTopX := i - g.conf })
      else pure (e, v) : Go (Obj F × Loc F)) = .ok (e', v') ∧ Core o n x S (i + 1) i e' v' ∧ SameTrail v v' ∧
        e'.bull = e.bull ∧ e'.bear = e.bear := by
    split
    · next hne =>
      obtain ⟨q1, q2⟩ := pivotHighF_val ho hne
      obtain ⟨m, hm, hmx, hj⟩ : ∃ m : Nat, m ≤ i ∧ v.eqTopX = m ∧
          (v.eqPrevTop = fl 0 ∨ (hi x m ==. v.eqPrevTop) = true) := by
        rcases H.eqTop with ⟨h1, h2⟩ | ⟨m, h1, h2, h3⟩
        · exact ⟨0, by omega, h2, .inl h1⟩
        · exact ⟨m, by omega, h2, .inr h3⟩
      have hpt : EqPt (hi x) (i + 1) (pivotHighF p p (hi x) i) ((i : Int) - g.conf) :=
        .inr ⟨i - p, by omega, by omega, q2⟩
      split
      · have e2 : (i : Int) - g.conf = ((i - p : Nat) : Int) := by omega
        rw [hmx, e2]
        obtain ⟨d, h1, h2, h3⟩ := draw_spec (data := e.data) (lo := m) (hi := i - p)
            (fun r => { r with eqh := v.eqPrevTop }) (by rw [H.len]; have := A.lt; omega)
        have hc := H.drawn h2 h3 (fun r => rfl) fun j r j1 j2 hr => { hr with
          eqh := hj.elim .inl fun h => .inr ⟨m, j1, h⟩ }
        exact ⟨{ e with data := d }, { v with eqPrevTop := pivotHighF p p (hi x) i, eqTopX := ((i - p : Nat) : Int) },
          by rw [h1, ok_bind]; rfl, { hc with eqTop := by rw [← e2]; exact hpt }, ⟨rfl, rfl, rfl, rfl⟩, rfl, rfl⟩
      · exact ⟨e, { v with eqPrevTop := pivotHighF p p (hi x) i, eqTopX := (i : Int) - g.conf }, rfl,
          { H with eqTop := hpt }, ⟨rfl, rfl, rfl, rfl⟩, rfl, rfl⟩
    · exact ⟨e, v, rfl, H, ⟨rfl, rfl, rfl, rfl⟩, rfl, rfl⟩
  rw [h1]
  simp only [ok_bind]
  obtain ⟨e2, v2, h2, H2, T2, B2, B2'⟩ : ∃ e' v', (if (!(pivotLowF p p (lo x) i ==. fl 0)) = true then do
      let data ← (if GoFloat.min (pivotLowF p p (lo x) i) v1.eqPrevBtm >.
          (GoFloat.max (pivotLowF p p (lo x) i) v1.eqPrevBtm -. a *. fl g.thr /. fl 10) then
        draw e1.data v1.eqBtmX (i - g.conf) (fun r => { r with eql := v1.eqPrevBtm }) else pure e1.data)
      pure ({ e1 with data := data }, { v1 with eqPrevBtm := pivotLowF p p (lo x) i, eqBtmX := i - g.conf })
      else pure (e1, v1) : Go (Obj F × Loc F)) = .ok (e', v') ∧ Core o n x S (i + 1) i e' v' ∧ SameTrail v1 v' ∧
        e'.bull = e1.bull ∧ e'.bear = e1.bear := by
    split
    · next hne =>
      obtain ⟨q1, q2⟩ := pivotLowF_val ho hne
      obtain ⟨m, hm, hmx, hj⟩ : ∃ m : Nat, m ≤ i ∧ v1.eqBtmX = m ∧
          (v1.eqPrevBtm = fl 0 ∨ (lo x m ==. v1.eqPrevBtm) = true) := by
        rcases H1.eqBtm with ⟨h1, h2⟩ | ⟨m, h1, h2, h3⟩
        · exact ⟨0, by omega, h2, .inl h1⟩
        · exact ⟨m, by omega, h2, .inr h3⟩
      have hpt : EqPt (lo x) (i + 1) (pivotLowF p p (lo x) i) ((i : Int) - g.conf) :=
        .inr ⟨i - p, by omega, by omega, q2⟩
      split
      · have e2 : (i : Int) - g.conf = ((i - p : Nat) : Int) := by omega
        rw [hmx, e2]
        obtain ⟨d, h1, h2, h3⟩ := draw_spec (data := e1.data) (lo := m) (hi := i - p)
            (fun r => { r with eql := v1.eqPrevBtm }) (by rw [H1.len]; have := A.lt; omega)
        have hc := H1.drawn h2 h3 (fun r => rfl) fun j r j1 j2 hr => { hr with
          eql := hj.elim .inl fun h => .inr ⟨m, j1, h⟩ }
        exact ⟨{ e1 with data := d }, { v1 with eqPrevBtm := pivotLowF p p (lo x) i, eqBtmX := ((i - p : Nat) : Int) },
          by rw [h1, ok_bind]; rfl, { hc with eqBtm := by rw [← e2]; exact hpt }, ⟨rfl, rfl, rfl, rfl⟩, rfl, rfl⟩
      · exact ⟨e1, { v1 with eqPrevBtm := pivotLowF p p (lo x) i, eqBtmX := (i : Int) - g.conf }, rfl,
          { H1 with eqBtm := hpt }, ⟨rfl, rfl, rfl, rfl⟩, rfl, rfl⟩
    · exact ⟨e1, v1, rfl, H1, ⟨rfl, rfl, rfl, rfl⟩, rfl, rfl⟩
  refine ⟨e2, v2, h2, H2, ?_, B2.trans B1, B2'.trans B1'⟩
  obtain ⟨t1, t2, t3, t4⟩ := T1
  obtain ⟨s1, s2, s3, s4⟩ := T2
  exact ⟨s1.trans t1, s2.trans t2, s3.trans t3, s4.trans t4⟩

theorem levels_core {n S i : Nat} {x : Nat → Candle F} (A : At o n x i) {e : Obj F} {v : Loc F}
    (H : Core o n x S (i + 1) i e v) (T : Trails o x S (i + 1) v) :
    ∃ e', levels (tab n (ti x)) (e, v) = .ok (e', v) ∧ Core o n x S (i + 1) i e' v ∧ e'.bull = e.bull ∧
      e'.bear = e.bear := by
  obtain ⟨⟨_, m, m1, m2, _, m3⟩, ⟨_, q, q1, q2, _, q3⟩⟩ := T
  have hlt := A.lt
  unfold levels
  simp only [m2, q2, idx_tab (show m < n by omega), idx_tab (show q < n by omega), ok_bind]
  have hu : LevelUp o (hi x) (ti x) (i + 1) ⟨ti x m, v.trailUp⟩ := by
    refine .inr ⟨m, i, by omega, by omega, rfl, ?_⟩
    rcases m3 with m3 | ⟨m3, m4⟩
    · exact .inl m3
    · exact .inr ⟨m3, fun j j1 j2 => m4 j j1 (by omega)⟩
  have hd : LevelDn o (lo x) (ti x) (i + 1) ⟨ti x q, v.trailDn⟩ := by
    refine .inr ⟨q, i, by omega, by omega, rfl, ?_⟩
    rcases q3 with m3 | ⟨m3, m4⟩
    · exact .inl m3
    · exact .inr ⟨m3, fun j j1 j2 => m4 j j1 (by omega)⟩
  refine ⟨_, rfl, ?_⟩
  by_cases c1 : v.trend < 0
  · have c2 : ¬ v.trend > 0 := by omega
    simp only [c1, c2, if_true, if_false]
    exact ⟨{ H with strongHigh := hu, weakLow := hd }, trivial, trivial⟩
  · by_cases c2 : v.trend > 0
    · simp only [c1, c2, if_true, if_false]
      exact ⟨{ H with weakHigh := hu, strongLow := hd }, trivial, trivial⟩
    · simp only [c1, c2, if_false]
      exact ⟨{ H with weakHigh := hu, weakLow := hd }, trivial, trivial⟩

/-! ## The whole loop -/

/-- The order blocks after candle `k - 1` was processed: none is broken by its close, and there are at most
`number + 1`. -/
def Fresh (x : Nat → Candle F) (number : Int) (S k : Nat) (l : List (Block F)) : Prop :=
  1 < k → S < k → (∀ b ∈ l, broken (cl x (k - 1)) b = false) ∧ (l.length : Int) ≤ max 0 (number + 1)

/-- The invariant between two passes. -/
structure Inv (o : OrdKey F L) (n : Nat) (x : Nat → Candle F) (g : Cfg) (S k : Nat) (e : Obj F) (v : Loc F) : Prop where
  core : Core o n x S k k e v
  trails : Trails o x S k v
  bull : Fresh x g.number S k e.bull
  bear : Fresh x g.number S k e.bear

theorem swings_event {i : Nat} {h l : Nat → F} (hh : ∀ j, j ≤ i → o.good (h j))
    (hl : ∀ j, j ≤ i → o.good (l j)) (len : Nat) (osPrev : Int) :
    ∃ top btm os, swings (tab (i + 1) h) (tab (i + 1) l) len osPrev = .ok (top, btm, os) ∧
      TopEvent o h len i top ∧ BtmEvent o l len i btm := by
  obtain ⟨top, btm, os, h1, h2⟩ := swings_spec o hh hl len osPrev
  refine ⟨top, btm, os, h1, ?_⟩
  rcases h2 with ⟨_, h2, h3⟩ | ⟨_, _, h4, h5, h6, h7⟩ | ⟨_, _, h4, h5, h6, h7⟩
  · exact ⟨.inl h2, .inl h3⟩
  · exact ⟨.inr ⟨h4, h5, h7⟩, .inl h6⟩
  · exact ⟨.inl h6, .inr ⟨h4, h5, h7⟩⟩

theorem step_inv (ho : Laws o) {n S i : Nat} {x : Nat → Candle F} {g : Cfg} (hS : g.swing = S)
    (hconf : g.enable = true → 0 ≤ g.conf) (A : At o n x i) (a : Nat → F) {e : Obj F} {v : Loc F}
    (H : Inv o n x g S i e v) :
    ∃ e' v', step g (ohlcOf n x) (tab n a) i (e, v) = .ok (e', v') ∧ Inv o n x g S (i + 1) e' v' := by
  have hlt := A.lt
  have hone := A.one
  have e1 : (i : Int) + 1 = ((i + 1 : Nat) : Int) := by omega
  unfold step
  simp only [ohlcOf, idx_tab A.lt, ok_bind, hS]
  split
  · next hi' =>
    refine ⟨_, _, rfl, ⟨?_, ?_, fun _ h => by omega, fun _ h => by omega⟩⟩
    · have hm := H.core.mono (Nat.le_succ i)
      exact { hm with
        time := fun j r hr => by rw [H.core.time j r hr, if_neg (by omega), if_neg (by omega)]
        top := by simpa only [trailInit, apply_ite Loc.topY, apply_ite Loc.topX, ite_self] using hm.top
        btm := by simpa only [trailInit, apply_ite Loc.btmY, apply_ite Loc.btmX, ite_self] using hm.btm
        itop := by simpa only [trailInit, apply_ite Loc.itopY, apply_ite Loc.itopX, ite_self] using hm.itop
        ibtm := by simpa only [trailInit, apply_ite Loc.ibtmY, apply_ite Loc.ibtmX, ite_self] using hm.ibtm
        eqTop := by simpa only [trailInit, apply_ite Loc.eqPrevTop, apply_ite Loc.eqTopX, ite_self] using hm.eqTop
        eqBtm := by simpa only [trailInit, apply_ite Loc.eqPrevBtm, apply_ite Loc.eqBtmX, ite_self] using hm.eqBtm
        itrendUp := by simpa only [trailInit, apply_ite Loc.itrend, ite_self] using hm.itrendUp
        itrendDn := by simpa only [trailInit, apply_ite Loc.itrend, ite_self] using hm.itrendDn
        trendDn := by simpa only [trailInit, apply_ite Loc.trend, ite_self] using hm.trendDn }
    · obtain ⟨⟨g1, m, m1, m2, m3, _⟩, ⟨g2, q, q1, q2, q3, _⟩⟩ := H.trails
      have hm0 := m3 (by omega)
      have hq0 := q3 (by omega)
      refine ⟨⟨?_, 0, by omega, ?_, fun _ => rfl, .inl rfl⟩, ⟨?_, 0, by omega, ?_, fun _ => rfl, .inl rfl⟩⟩
      · simp only [trailInit, apply_ite Loc.trailUp, ite_self]
        split
        · exact A.hi i le_rfl
        · exact g1
      · simp only [trailInit, apply_ite Loc.trailUpX, ite_self]; omega
      · simp only [trailInit, apply_ite Loc.trailDn, ite_self]
        split
        · exact A.lo i le_rfl
        · exact g2
      · simp only [trailInit, apply_ite Loc.trailDnX, ite_self]; omega
  · next hi' =>
    have s1 := fun (f : Nat → F) => slice_tab (n := n) (lo := 0) (hi := i + 1) f (by omega) (by omega)
    simp only [Nat.sub_zero, Nat.zero_add, Nat.cast_zero] at s1
    obtain ⟨top, btm, os1, w1, t1, b1⟩ := swings_event A.hi A.lo S e.os1
    obtain ⟨itop, ibtm, os2, w2, t2, b2⟩ := swings_event A.hi A.lo 5 e.os2
    have w2' : swings (tab (i + 1) (hi x)) (tab (i + 1) (lo x)) 5 e.os2 = .ok (itop, ibtm, os2) := w2
    obtain ⟨C, T⟩ := takeSwings_core ho A.hi A.lo (by omega) H.core H.trails t1 b1 t2 b2
    have C0 : Core o n x S (i + 1) i { e with os1 := os1, os2 := os2 } _ := { C with }
    rw [e1]
    simp only [s1, ok_bind, w1, w2']
    obtain ⟨ea, va, ha, Ca, Ta⟩ := highShort_core ho A a C0
    simp only [ohlcOf] at ha
    rw [ha, ok_bind]
    obtain ⟨eb, vb, hb, Cb, Tb⟩ := highLong_core ho A a Ca
    simp only [ohlcOf] at hb
    rw [hb, ok_bind]
    obtain ⟨ec, vc, hc, Cc, Tc⟩ := lowShort_core ho A a Cb
    simp only [ohlcOf] at hc
    rw [hc, ok_bind]
    obtain ⟨ed, vd, hd, Cd, Td⟩ := lowLong_core ho A a Cc
    simp only [ohlcOf] at hd
    rw [hd, ok_bind]
    have Tr := (((T.of Ta).of Tb).of Tc).of Td
    simp only [prune_eq _ _ _ Cd.bull.1, prune_eq _ _ _ Cd.bear.1, ok_bind]
    have Ce : Core o n x S (i + 1) i { ed with
        bull := kept (cl x i) g.number 0 ed.bull, bear := kept (cl x i) g.number 0 ed.bear } vd :=
      { Cd with bull := Cd.bull.sub (kept_sublist _ _ _ _), bear := Cd.bear.sub (kept_sublist _ _ _ _) }
    obtain ⟨ef, vf, hf, Cf, Tf, Bf, Bf'⟩ : ∃ e' v', (if g.enable = true then
        equals g (tab (i + 1) (hi x)) (tab (i + 1) (lo x)) (a i) i ({ ed with
          bull := kept (cl x i) g.number 0 ed.bull, bear := kept (cl x i) g.number 0 ed.bear }, vd)
        else pure ({ ed with
          bull := kept (cl x i) g.number 0 ed.bull, bear := kept (cl x i) g.number 0 ed.bear }, vd)) = .ok (e', v') ∧
        Core o n x S (i + 1) i e' v' ∧ SameTrail vd v' ∧ e'.bull = kept (cl x i) g.number 0 ed.bull ∧
        e'.bear = kept (cl x i) g.number 0 ed.bear := by
      split
      · next hen =>
        obtain ⟨e', v', h1, h2, h3, h4, h5⟩ := equals_core ho (hconf hen) A (a i) Ce
        exact ⟨e', v', h1, h2, h3, h4, h5⟩
      · exact ⟨_, _, rfl, Ce, ⟨rfl, rfl, rfl, rfl⟩, rfl, rfl⟩
    rw [hf, ok_bind]
    obtain ⟨eg, hg, Cg, Bg, Bg'⟩ := levels_core A Cf (Tr.of Tf)
    rw [hg]
    simp only [ok_bind]
    have hidx : i < eg.data.length := by rw [Cg.len]; exact A.lt
    rw [idx_of_getElem? (List.getElem?_eq_getElem hidx), ok_bind, setAt_nat hidx, ok_bind]
    refine ⟨_, _, rfl, ?_, Tr.of Tf, ?_, ?_⟩
    · exact { Cg with
        len := by rw [← Cg.len]; exact List.length_set
        time := by
          intro j r hr
          have hr : (eg.data.set i { eg.data[i] with time := ti x i })[j]? = some r := hr
          rw [List.getElem?_set] at hr
          by_cases hj : i = j
          · subst hj
            rw [if_pos rfl, if_pos hidx] at hr
            cases hr
            rw [if_pos ⟨hone, by omega, by omega⟩]
          · rw [if_neg hj] at hr
            rw [Cg.time j r hr]
            by_cases hc : 1 ≤ j ∧ S ≤ j ∧ j < i
            · rw [if_pos hc, if_pos ⟨hc.1, hc.2.1, by omega⟩]
            · rw [if_neg hc, if_neg (by omega)]
        lines := by
          intro j r hr
          have hr : (eg.data.set i { eg.data[i] with time := ti x i })[j]? = some r := hr
          rw [List.getElem?_set] at hr
          by_cases hj : i = j
          · subst hj
            rw [if_pos rfl, if_pos hidx] at hr
            cases hr
            have := Cg.lines i _ (List.getElem?_eq_getElem hidx)
            exact { this with }
          · rw [if_neg hj] at hr
            exact Cg.lines j r hr }
    · intro _ _
      have : eg.bull = kept (cl x i) g.number 0 ed.bull := Bg.trans Bf
      refine ⟨?_, ?_⟩
      · show ∀ b ∈ eg.bull, _
        rw [this]; exact kept_unbroken _ _ _ _
      · show (eg.bull.length : Int) ≤ _
        rw [this]; simpa using kept_length (cl x i) g.number ed.bull 0
    · intro _ _
      have : eg.bear = kept (cl x i) g.number 0 ed.bear := Bg'.trans Bf'
      refine ⟨?_, ?_⟩
      · show ∀ b ∈ eg.bear, _
        rw [this]; exact kept_unbroken _ _ _ _
      · show (eg.bear.length : Int) ≤ _
        rw [this]; simpa using kept_length (cl x i) g.number ed.bear 0

/-- No high, low or close of the first `n` candles is NaN (or whatever else the order leaves out). -/
def Clean (o : OrdKey F L) (n : Nat) (x : Nat → Candle F) : Prop :=
  ∀ j, j < n → o.good (hi x j) ∧ o.good (lo x j) ∧ o.good (cl x j)

theorem Clean.at {n i : Nat} {x : Nat → Candle F} (h : Clean o n x) (h1 : 1 ≤ i) (h2 : i < n) : At o n x i :=
  ⟨h1, h2, fun j hj => (h j (by omega)).1, fun j hj => (h j (by omega)).2.1, fun j hj => (h j (by omega)).2.2⟩

theorem init_inv (ho : Laws o) {n S : Nat} {x : Nat → Candle F} {g : Cfg} :
    Inv o n x g S 1 ({ Obj.new with data := List.replicate n Rec.zero } : Obj F) Loc.new where
  core :=
    { len := by simp
      time := by
        intro j r hr
        have hr : (List.replicate n (Rec.zero : Rec F))[j]? = some r := hr
        rw [List.getElem?_replicate] at hr
        split at hr
        · cases hr; rw [if_neg (by omega)]; rfl
        · cases hr
      lines := by
        intro j r hr
        have hr : (List.replicate n (Rec.zero : Rec F))[j]? = some r := hr
        rw [List.getElem?_replicate] at hr
        split at hr
        · cases hr
          exact ⟨.inl rfl, .inl rfl, .inl rfl, .inl rfl, .inl rfl, .inl rfl, .inl rfl, .inl rfl, .inl rfl, .inl rfl⟩
        · cases hr
      top := .inl ⟨rfl, rfl⟩
      btm := .inl ⟨rfl, rfl⟩
      itop := .inl ⟨rfl, rfl⟩
      ibtm := .inl ⟨rfl, rfl⟩
      eqTop := .inl ⟨rfl, rfl⟩
      eqBtm := .inl ⟨rfl, rfl⟩
      bull := ⟨List.Pairwise.nil, fun b hb => by cases hb⟩
      bear := ⟨List.Pairwise.nil, fun b hb => by cases hb⟩
      idxBull := ⟨0, by omega, rfl⟩
      idxBear := ⟨0, by omega, rfl⟩
      strongHigh := .inl rfl
      weakHigh := .inl rfl
      strongLow := .inl rfl
      weakLow := .inl rfl
      itrendUp := fun h => absurd h (show ¬ ((0 : Int) < 0) by decide)
      itrendDn := fun h => absurd h (show ¬ ((0 : Int) < 0) by decide)
      trendDn := fun h => absurd h (show ¬ ((0 : Int) < 0) by decide) }
  trails := ⟨⟨ho.zero, 0, by omega, rfl, fun _ => rfl, .inl rfl⟩, ⟨ho.zero, 0, by omega, rfl, fun _ => rfl, .inl rfl⟩⟩
  bull := fun h => absurd h (by omega)
  bear := fun h => absurd h (by omega)

/-- More than 200 candles: `Calculation` on a new object returns, and the invariant holds at the end. -/
theorem calc_inv (ho : Laws o) {n S : Nat} {x : Nat → Candle F} {g : Cfg} (hS : g.swing = S)
    (hconf : g.enable = true → 0 ≤ g.conf) (hn : 200 < n) (hx : Clean o n x) :
    ∃ e v, Calculation g (ohlcOf n x) Obj.new = .ok e ∧ Inv o n x g S n e v := by
  unfold Calculation
  have h200 : okAtr 200 n := .inr (by omega)
  have hA : Atr (ohlcOf n x).high (ohlcOf n x).low (ohlcOf n x).close 200 =
      .ok (tab n (atrI 200 (hi x) (lo x) (cl x))) := Atr_ok _ _ _ h200
  have hlen : (ohlcOf n x).close.length = n := by simp [ohlcOf]
  rw [hA, ok_bind, hlen, mk_nat, ok_bind]
  obtain ⟨⟨e, v⟩, hs, hI⟩ := goFor_inv' (lo := 1) (hi := n)
    (s := (({ Obj.new with data := List.replicate n Rec.zero } : Obj F), (Loc.new : Loc F))) (by omega)
    (body := fun i s => step g (ohlcOf n x) (tab n (atrI 200 (hi x) (lo x) (cl x))) i s)
    (fun k s => Inv o n x g S k s.1 s.2) (init_inv ho)
    (by
      rintro k ⟨e, v⟩ h1 h2 hI
      obtain ⟨e', v', h3, h4⟩ := step_inv ho hS hconf (hx.at h1 h2) (atrI 200 (hi x) (lo x) (cl x)) hI
      exact ⟨(e', v'), h3, h4⟩)
  have e1 : ((1 : Nat) : Int) = 1 := rfl
  rw [e1] at hs
  rw [hs]
  exact ⟨e, v, rfl, hI⟩

end Verif.Ind.Smc
