import Verif.Ind.SmcRun
import Verif.Props.Bars

/-!
# Smart Money Concepts (C67 – C74)

The notions used by the statements - `PeakAt`, `DipAt`, `UpLine`, `DownLine`, `ChochUp`, `ChochDown`, `EqLine`,
`LevelUp`, `LevelDn`, `blockOf`, `TopChoice`, `BottomChoice`, `Clean` - speak about the columns of the candles only;
they stand in `Verif/Ind/SmcInv.lean` and `Verif/Ind/SmcRun.lean`.
-/

set_option linter.unusedSectionVars false

namespace Verif.Props
open Verif Verif.Klines Verif.Ta Verif.Ind Verif.Ind.Smc GoFloat

variable {F : Type} [GoFloat F] {L : Type} [LinearOrder L] {o : OrdKey F L}

/-- `NewSmartMoneyConcepts(item, …)` followed by `GetData` (trend/SmartMoneyConcepts.go:80-91 and 550-555): the
records and the object afterwards. -/
def smcRun (g : Cfg) (it : Item F) : Go (List (Smc.Rec F) × Smc.Obj F) := do
  let c ← GetOHLC it
  GetData g c Obj.new

theorem smcRun_eq {g : Cfg} {it : Item F} {n : Nat} {x : Nat → Candle F} (hx : it.candles = tab n x) :
    smcRun g it = Calculation g (ohlcOf n x) Obj.new >>= fun e => .ok (e.data, e) := by
  rw [smcRun, GetOHLC_tab hx, ok_bind, GetData]
  rfl

/-- A run that returns ends in the loop invariant. -/
theorem smcRun_inv (ho : Laws o) {g : Cfg} {it : Item F} {n : Nat} {x : Nat → Candle F} {S : Nat}
    (hx : it.candles = tab n x) (hc : Clean o n x) (hS : g.swing = S) (hconf : g.enable = true → 0 ≤ g.conf)
    (hn : 200 < n) : ∃ e v, smcRun g it = .ok (e.data, e) ∧ Inv o n x g S n e v := by
  obtain ⟨e, v, h1, h2⟩ := calc_inv ho hS hconf hn hc
  refine ⟨e, v, ?_, h2⟩
  rw [smcRun_eq hx, h1, ok_bind]

/-- Fewer than 201 candles: the run panics, whatever the prices. -/
theorem smcRun_short {g : Cfg} {it : Item F} {n : Nat} {x : Nat → Candle F} (hx : it.candles = tab n x)
    (hn : n ≤ 200) : ∃ p, smcRun g it = .error p := by
  rw [smcRun_eq hx, Calculation]
  obtain ⟨p, hp⟩ := Atr_err (n := n) (p := 200) (hi x) (lo x) (cl x) (by simp only [okAtr]; omega)
  have hp : Atr (ohlcOf n x).high (ohlcOf n x).low (ohlcOf n x).close 200 = .error p := hp
  rw [hp]
  exact ⟨p, rfl⟩

/-- A negative swing length: the run panics. -/
theorem smcRun_neg {g : Cfg} {it : Item F} {n : Nat} {x : Nat → Candle F} (hx : it.candles = tab n x)
    (hc : Clean o n x) (hn : 200 < n) (hS : g.swing < 0) : ∃ p, smcRun g it = .error p := by
  rw [smcRun_eq hx, Calculation]
  have hA : Atr (ohlcOf n x).high (ohlcOf n x).low (ohlcOf n x).close 200 =
      .ok (tab n (atrI 200 (hi x) (lo x) (cl x))) := Atr_ok _ _ _ (.inr (by omega))
  have hlen : (ohlcOf n x).close.length = n := by simp [ohlcOf]
  rw [hA, ok_bind, hlen, mk_nat, ok_bind, goFor_error_first (p := .index) (by omega)]
  · exact ⟨_, rfl⟩
  · have s1 := fun (f : Nat → F) => slice_tab (n := n) (lo := 0) (hi := 2) f (by omega) (by omega)
    simp only [Nat.sub_zero, Nat.zero_add, Nat.cast_zero] at s1
    have i1 := fun (f : Nat → F) => idx_tab (n := n) (i := 1) (x := f) (by omega)
    have i2 := idx_tab (n := n) (i := 1) (x := ti x) (by omega)
    have e1 : ((1 : Nat) : Int) = 1 := rfl
    have e2 : ((2 : Nat) : Int) = 1 + 1 := rfl
    rw [e2] at s1
    simp only [e1] at i1 i2
    unfold step
    simp only [ohlcOf, i1, i2, ok_bind]
    rw [if_neg (by omega)]
    simp only [s1, ok_bind]
    obtain ⟨u, hu, -⟩ := Highest_key o (i := 1) (x := hi x) (fun j hj => (hc j (by omega)).1) g.swing
    obtain ⟨w, hw, -⟩ := Lowest_key o (i := 1) (x := lo x) (fun j hj => (hc j (by omega)).2.1) g.swing
    rw [swings, hu, ok_bind, hw, ok_bind]
    simp only [tab_length]
    rw [show ((1 + 1 : Nat) : Int) - 1 = ((1 : Nat) : Int) by omega, idx_tab (by omega), ok_bind,
      if_pos (by omega), idx_tab_ge (by omega)]
    rfl

/-! ## C67: when a run returns -/

/-- **C67.** With the constructor's setting (`EQHEQL_Enable` off) and candles without NaN, a run returns exactly when
there are more than 200 candles and the swing length is not negative; there is one record per candle. -/
theorem C67_smc_returns_iff (ho : Laws o) {g : Cfg} {it : Item F} {n : Nat} {x : Nat → Candle F}
    (hx : it.candles = tab n x) (hc : Clean o n x) (hg : g.enable = false) :
    (∃ r, smcRun g it = .ok r) ↔ 200 < n ∧ 0 ≤ g.swing := by
  constructor
  · rintro ⟨r, hr⟩
    by_cases hn : 200 < n
    · refine ⟨hn, ?_⟩
      by_contra hS
      obtain ⟨p, hp⟩ := smcRun_neg (g := g) hx hc hn (by omega)
      rw [hp] at hr; cases hr
    · obtain ⟨p, hp⟩ := smcRun_short (g := g) hx (by omega)
      rw [hp] at hr; cases hr
  · rintro ⟨hn, hS⟩
    obtain ⟨e, v, h, -⟩ := smcRun_inv (g := g) (S := g.swing.toNat) ho hx hc (by omega) (fun h => by rw [hg] at h; cases h) hn
    exact ⟨_, h⟩

/-- **C67.** With equal highs and lows switched on, a run also returns, provided `EQHEQL_BarsConfirmation` is not
negative. -/
theorem C67_smc_returns_eq (ho : Laws o) {g : Cfg} {it : Item F} {n : Nat} {x : Nat → Candle F}
    (hx : it.candles = tab n x) (hc : Clean o n x) (hn : 200 < n) (hS : 0 ≤ g.swing) (hconf : 0 ≤ g.conf) :
    ∃ e, smcRun g it = .ok (e.data, e) ∧ e.data.length = n := by
  obtain ⟨e, v, h, hI⟩ := smcRun_inv (g := g) (S := g.swing.toNat) ho hx hc (by omega) (fun _ => hconf) hn
  exact ⟨e, h, hI.core.len⟩

/-! ## C68: every line comes from a swing and a break -/

/-- **C68.** In every record of a run: a nonzero `HighBos…` (`LowBos…`) value is the high (low) of a swing candle at or
before the record - above (below) the next 5 or `SwingLenght` candles - which a close at or after the record crosses,
not before the swing is confirmed; a nonzero `EQH` (`EQL`) value is the high (low) of a candle at or before the
record. -/
theorem C68_smc_lines (ho : Laws o) {g : Cfg} {it : Item F} {n S : Nat} {x : Nat → Candle F}
    (hx : it.candles = tab n x) (hc : Clean o n x) (hS : g.swing = S) (hconf : g.enable = true → 0 ≤ g.conf)
    (hn : 200 < n) : ∃ e, smcRun g it = .ok (e.data, e) ∧ ∀ (j : Nat) r, e.data[j]? = some r →
      UpLine o (hi x) (cl x) 5 n j r.highBosShort ∧ UpLine o (hi x) (cl x) S n j r.highBosLong ∧
      DownLine o (lo x) (cl x) 5 n j r.lowBosShort ∧ DownLine o (lo x) (cl x) S n j r.lowBosLong ∧
      EqLine (hi x) j r.eqh ∧ EqLine (lo x) j r.eql := by
  obtain ⟨e, v, h, hI⟩ := smcRun_inv ho hx hc hS hconf hn
  refine ⟨e, h, fun j r hr => ?_⟩
  have := hI.core.lines j r hr
  exact ⟨this.highBosShort, this.highBosLong, this.lowBosShort, this.lowBosLong, this.eqh, this.eql⟩

/-! ## C69: the lists of order blocks -/

/-- **C69 (partial).** After a run over more than `SwingLenght` candles both lists of order blocks hold only blocks
made of a candle (its time, open, high, low and close), no two of the same direction and time, no top whose high is
below the last close, no bottom whose close is above it, and at most `OrderBlockNumber + 1` of them. Missing: "at most
`OrderBlockNumber`", see `C69_smc_blocks_refuted`. -/
theorem C69_smc_blocks_partial (ho : Laws o) {g : Cfg} {it : Item F} {n S : Nat} {x : Nat → Candle F}
    (hx : it.candles = tab n x) (hc : Clean o n x) (hS : g.swing = S) (hconf : g.enable = true → 0 ≤ g.conf)
    (hn : 200 < n) (hSn : S < n) : ∃ e, smcRun g it = .ok (e.data, e) ∧ ∀ l, l = e.bull ∨ l = e.bear →
      l.Pairwise (fun b b' => ¬ (b.isTop = b'.isTop ∧ b.time = b'.time)) ∧
      (∀ b ∈ l, ∃ m, m < n ∧ b = blockOf x b.isTop m) ∧
      (∀ b ∈ l, (b.isTop = false → (cl x (n - 1) <. b.close) = false) ∧
        (b.isTop = true → (b.high <. cl x (n - 1)) = false)) ∧
      (l.length : Int) ≤ max 0 (g.number + 1) := by
  obtain ⟨e, v, h, hI⟩ := smcRun_inv ho hx hc hS hconf hn
  refine ⟨e, h, ?_⟩
  have key : ∀ l, Blocks x n l → Smc.Fresh x g.number S n l →
      l.Pairwise (fun b b' => ¬ (b.isTop = b'.isTop ∧ b.time = b'.time)) ∧
      (∀ b ∈ l, ∃ m, m < n ∧ b = blockOf x b.isTop m) ∧
      (∀ b ∈ l, (b.isTop = false → (cl x (n - 1) <. b.close) = false) ∧
        (b.isTop = true → (b.high <. cl x (n - 1)) = false)) ∧
      (l.length : Int) ≤ max 0 (g.number + 1) := by
    intro l hB hF
    obtain ⟨hF1, hF2⟩ := hF (by omega) hSn
    refine ⟨hB.1, hB.2, fun b hb => ?_, hF2⟩
    have hbr := hF1 b hb
    simp only [broken, GoFloat.gt, Bool.or_eq_false_iff, Bool.and_eq_false_iff] at hbr
    constructor
    · intro ht; simpa [ht] using hbr.1
    · intro ht; simpa [ht] using hbr.2
  rintro l (rfl | rfl)
  · exact key _ hI.core.bull hI.bull
  · exact key _ hI.core.bear hI.bear

/-! ## C70: which candle becomes the order block -/

/-- **C70 (partial).** With some narrow candle (range below twice the 200-candle average true range) between the swing
candle `loc` and the break `index`, the order block of an upward break (`useMax` off) is the narrow candle with the
lowest low, that of a downward break the one with the highest high; the earliest one if several share it. Missing: a
series with no narrow candle in between, where candle 1 is taken (`C70_smc_block_early_refuted`), lows above 99999999,
negative highs. -/
theorem C70_smc_block_choice_partial (ho : Laws o) {n index loc : Nat} {x : Nat → Candle F} {a : Nat → F}
    {e : Smc.Obj F} {ty : Int} (hty : ty = 1 ∨ ty = 2) (list : List (Block F)) (hn : index < n) (h1 : 1 ≤ index)
    (hc : Clean o n x) {p0 : Nat} (hp0 : e.prev ty = p0) (hp0' : p0 ≤ index)
    (hnar : ∃ j, loc ≤ j ∧ j ≤ index ∧ Narrow (hi x) (lo x) a j) :
    (∃ e' m, obCoord (ohlcOf n x) e true index loc (tab (index + 1) (hi x)) (tab (index + 1) (lo x))
        (tab (index + 1) a) list ty = .ok (e', Ind.Add list (blockOf x true m)) ∧
      ((∀ j, loc ≤ j → j ≤ index → o.key (fl 0 : F) ≤ o.key (hi x j)) →
        TopChoice o (hi x) (lo x) a loc index m)) ∧
    ∃ e' m, obCoord (ohlcOf n x) e false index loc (tab (index + 1) (hi x)) (tab (index + 1) (lo x))
        (tab (index + 1) a) list ty = .ok (e', Ind.Add list (blockOf x false m)) ∧
      ((∀ j, loc ≤ j → j ≤ index → o.key (lo x j) ≤ o.key (lit 99999999 : F)) →
        BottomChoice o (hi x) (lo x) a loc index m) := by
  obtain ⟨j, j1, j2, j3⟩ := hnar
  constructor
  · obtain ⟨p, m, -, -, h, h'⟩ := obTop ho hty list hn h1 (loc := loc) (by omega) (fun j hj => (hc j (by omega)).1) hp0 hp0'
    refine ⟨_, m, h, ?_⟩
    rcases h' with ⟨-, -, h'⟩ | ⟨-, -, h'⟩
    · exact absurd j3 (h' j j1 j2)
    · exact h'
  · obtain ⟨p, m, -, -, h, h'⟩ := obBottom ho hty list hn h1 (loc := loc) (by omega) (fun j hj => (hc j (by omega)).2.1) hp0 hp0'
    refine ⟨_, m, h, ?_⟩
    rcases h' with ⟨-, -, h'⟩ | ⟨-, -, h'⟩
    · exact absurd j3 (h' j j1 j2)
    · exact h'

section exact
variable {K : Type} [Field K] [LinearOrder K] [IsStrictOrderedRing K]

/-- **C70 (refuted part).** On bars with `low <= high`, every order block drawn at one of the first 200 candles is
candle 1, whatever the candles between swing and break are: the average true range is still 0 there, so no candle
counts as narrow. -/
theorem C70_smc_block_early_refuted {n index loc : Nat} {x : Nat → Candle (XF K)}
    (hb : ∀ j, j < n → ∃ h l : K, hi x j = .fin h ∧ lo x j = .fin l ∧ l ≤ h)
    (hn : index < n) (h1 : 1 ≤ index) (h200 : index < 200) (hloc : loc ≤ index) {as : List (XF K)}
    (ha : Atr (tab n (hi x)) (tab n (lo x)) (tab n (cl x)) 200 = .ok as) {e : Smc.Obj (XF K)} {ty : Int}
    (hty : ty = 1 ∨ ty = 2) (list : List (Block (XF K))) {p0 : Nat} (hp0 : e.prev ty = p0) (hp0' : p0 ≤ index)
    (useMax : Bool) :
    obCoord (ohlcOf n x) e useMax index loc (tab (index + 1) (hi x)) (tab (index + 1) (lo x)) (as.take (index + 1))
      list ty = .ok (e, Ind.Add list (blockOf x useMax 1)) := by
  have hok : okAtr 200 n := by
    by_contra hcon
    obtain ⟨p, hp⟩ := Atr_err (n := n) (p := 200) (hi x) (lo x) (cl x) hcon
    rw [hp] at ha; cases ha
  rw [Atr_ok _ _ _ hok] at ha
  obtain rfl := (Except.ok.inj ha).symm
  rw [tab_take _ (by omega)]
  have hz : ∀ j, j ≤ index → ¬ Narrow (hi x) (lo x) (atrI 200 (hi x) (lo x) (cl x)) j := by
    intro j hj
    obtain ⟨h, l, e1, e2, e3⟩ := hb j (by omega)
    rw [Narrow, atrI, if_neg (by omega), if_neg (by omega), atrF, if_pos (show j < Int.toNat 200 by omega), e1, e2,
      XF.fl_fin, XF.fl_fin, XF.sub_fin, XF.mul_fin, XF.lt_fin]
    simp [e3]
  have hgh : ∀ j, j ≤ index → XF.ordKey.good (hi x j) := fun j hj => by
    obtain ⟨h, l, e1, e2, e3⟩ := hb j (by omega); rw [e1]; intro h; cases h
  have hgl : ∀ j, j ≤ index → XF.ordKey.good (lo x j) := fun j hj => by
    obtain ⟨h, l, e1, e2, e3⟩ := hb j (by omega); rw [e2]; intro h; cases h
  cases useMax
  · obtain ⟨p, m, -, -, h, h'⟩ := obBottom (a := atrI 200 (hi x) (lo x) (cl x)) xfLaws hty list hn h1 hloc hgl hp0 hp0'
    rcases h' with ⟨rfl, rfl, -⟩ | ⟨-, ⟨j, -, j2, j3⟩, -⟩
    · rw [h, ← hp0, setPrev_prev e hty]
    · exact absurd j3 (hz j j2)
  · obtain ⟨p, m, -, -, h, h'⟩ := obTop (a := atrI 200 (hi x) (lo x) (cl x)) xfLaws hty list hn h1 hloc hgh hp0 hp0'
    rcases h' with ⟨rfl, rfl, -⟩ | ⟨-, ⟨j, -, j2, j3⟩, -⟩
    · rw [h, ← hp0, setPrev_prev e hty]
    · exact absurd j3 (hz j j2)

end exact

/-! ## C71: strong and weak levels -/

/-- **C71 (partial).** After a run each of the four levels that is set carries the time of a candle `m`; unless `m` is
candle 0, `StrongHigh` and `WeakHigh` are the high of that candle and the highest high from it to some later candle,
`StrongLow` and `WeakLow` its low and the lowest low. Missing: the case `m = 0`, see `C71_smc_levels_refuted`. -/
theorem C71_smc_levels_partial (ho : Laws o) {g : Cfg} {it : Item F} {n S : Nat} {x : Nat → Candle F}
    (hx : it.candles = tab n x) (hc : Clean o n x) (hS : g.swing = S) (hconf : g.enable = true → 0 ≤ g.conf)
    (hn : 200 < n) : ∃ e, smcRun g it = .ok (e.data, e) ∧
      LevelUp o (hi x) (ti x) n e.strongHigh ∧ LevelUp o (hi x) (ti x) n e.weakHigh ∧
      LevelDn o (lo x) (ti x) n e.strongLow ∧ LevelDn o (lo x) (ti x) n e.weakLow := by
  obtain ⟨e, v, h, hI⟩ := smcRun_inv ho hx hc hS hconf hn
  exact ⟨e, h, hI.core.strongHigh, hI.core.weakHigh, hI.core.strongLow, hI.core.weakLow⟩

/-! ## C72: the times of the records -/

/-- **C72 (partial).** There is one record per candle; from candle `max 1 SwingLenght` on it carries the time of its
candle. Missing: the records before, which carry the zero time (the same theorem says so). -/
theorem C72_smc_times_partial (ho : Laws o) {g : Cfg} {it : Item F} {n S : Nat} {x : Nat → Candle F}
    (hx : it.candles = tab n x) (hc : Clean o n x) (hS : g.swing = S) (hconf : g.enable = true → 0 ≤ g.conf)
    (hn : 200 < n) : ∃ e, smcRun g it = .ok (e.data, e) ∧ e.data.length = n ∧
      ∀ (j : Nat) r, e.data[j]? = some r → r.time = if 1 ≤ j ∧ S ≤ j then ti x j else zeroUnix := by
  obtain ⟨e, v, h, hI⟩ := smcRun_inv ho hx hc hS hconf hn
  refine ⟨e, h, hI.core.len, fun j r hr => ?_⟩
  have hj : j < n := by rw [← hI.core.len]; exact (List.getElem?_eq_some_iff.mp hr).1
  rw [hI.core.time j r hr]
  simp only [hj, and_true]

/-! ## C73: reading twice -/

/-- **C73 (partial).** Once `GetData` has returned, it returns the same records again and changes nothing. Missing: a
recomputation after `Clear`, see `C73_smc_clear_refuted`. -/
theorem C73_smc_again_partial {g : Cfg} {c : OHLC F} {e e' : Smc.Obj F} {d : List (Smc.Rec F)}
    (h : Smc.GetData g c e = .ok (d, e')) (hd : d ≠ []) : Smc.GetData g c e' = .ok (d, e') := by
  have he : e'.data = d := by
    rw [Smc.GetData] at h
    cases h1 : (if e.data.length = 0 then Smc.Calculation g c e else pure e) with
    | error p => rw [h1] at h; cases h
    | ok e1 => rw [h1] at h; cases h; rfl
  rw [Smc.GetData, if_neg (by rw [he]; simpa using hd), pure_eq_ok, ok_bind, he]
  rfl

/-! ## C74: changes of character -/

/-- **C74 (partial).** With no close below 0, every upward change-of-character line stands at a swing high that a close
crosses after an earlier close has crossed under a swing low of the same length (5 for the short-term lines,
`SwingLenght` for the long-term ones); every short-term downward one the other way round. Missing: for the long-term
downward line the earlier upward break is only known to be a short-term one, see `C74_smc_choch_refuted`. -/
theorem C74_smc_choch_partial (ho : Laws o) {g : Cfg} {it : Item F} {n S : Nat} {x : Nat → Candle F}
    (hx : it.candles = tab n x) (hc : Clean o n x) (hS : g.swing = S) (hconf : g.enable = true → 0 ≤ g.conf)
    (hn : 200 < n) : ∃ e, smcRun g it = .ok (e.data, e) ∧ ∀ (j : Nat) r, e.data[j]? = some r →
      ChochUp o (hi x) (lo x) (cl x) 5 n j r.highChochShort ∧ ChochUp o (hi x) (lo x) (cl x) S n j r.highChochLong ∧
      ChochDown o (hi x) (lo x) (cl x) 5 5 n j r.lowChochShort ∧
      ChochDown o (hi x) (lo x) (cl x) S 5 n j r.lowChochLong := by
  obtain ⟨e, v, h, hI⟩ := smcRun_inv ho hx hc hS hconf hn
  refine ⟨e, h, fun j r hr => ?_⟩
  have := hI.core.lines j r hr
  exact ⟨this.highChochShort, this.highChochLong, this.lowChochShort, this.lowChochLong⟩

end Verif.Props
