import Verif.Props.WindowLines

/-!
# ProjectionOscillator (C88)

Exact arithmetic.
-/

set_option linter.unusedSectionVars false

namespace Verif.Props
open Verif Verif.Klines Verif.Ta Verif.Ind Verif.Container GoFloat XF

variable {K : Type} [Field K] [LinearOrder K] [IsStrictOrderedRing K]

/-! ## A window whose first value is NaN -/

theorem cmp_nan (v : XF K) : compareFloat64 v XF.nan = 0 := by
  simp only [compareFloat64, GoFloat.gt]
  cases v <;> simp [GoFloat.lt, XF.lt]

/-- A NaN entered first becomes the root, everything else goes below it on the left; it leaves again after `p` steps. -/
theorem winTree_nan {p : Nat} (hp : 0 < p) {x : Nat → XF K} (h0 : x 0 = .nan) (k : Nat) :
    winTree p x (k + 1) =
      if k < p then .node (winTree p (fun j => x (j + 1)) k) .nan .nil else winTree p (fun j => x (j + 1)) k := by
  induction k with
  | zero =>
    rw [winTree, winTree, if_neg (by omega), if_pos hp, h0]
    rfl
  | succ k ih =>
    rw [winTree, ih, winTree.eq_2 p (fun j => x (j + 1)) k]
    by_cases h : k < p
    · rw [if_pos h]
      have e : Bst.insert compareFloat64 (x (k + 1)) (.node (winTree p (fun j => x (j + 1)) k) .nan .nil) =
          .node (Bst.insert compareFloat64 (x (k + 1)) (winTree p (fun j => x (j + 1)) k)) .nan .nil := by
        rw [Bst.insert, if_pos (by rw [cmp_nan])]
      simp only [e]
      rw [if_neg (show ¬ p ≤ k by omega)]
      by_cases h' : k + 1 < p
      · rw [if_neg (by omega), if_pos h']
      · have ek : k + 1 - p = 0 := by omega
        rw [if_pos (by omega), if_neg h', ek, h0, Bst.remove, if_pos (cmp_nan _)]
        generalize Bst.insert compareFloat64 (x (k + 1)) (winTree p (fun j => x (j + 1)) k) = t
        cases t <;> rfl
    · rw [if_neg h, if_neg (show ¬ k + 1 < p by omega)]
      rw [if_pos (show p ≤ k + 1 by omega), if_pos (show p ≤ k by omega),
        show k + 1 - p = k - p + 1 by omega]

theorem maxF_nan {p : Nat} (hp : 0 < p) {x : Nat → XF K} (h0 : x 0 = .nan) (i : Nat) :
    (i < p → maxF p x i = .nan) ∧ (p ≤ i → maxF p x i = maxF p (fun j => x (j + 1)) (i - 1)) := by
  refine ⟨fun h => ?_, fun h => ?_⟩
  · rw [maxF, winTree_nan hp h0, if_pos h]; rfl
  · rw [maxF, winTree_nan hp h0, if_neg (by omega), maxF, show i - 1 + 1 = i by omega]

theorem minF_nan {p : Nat} (hp : 0 < p) {x : Nat → XF K} (h0 : x 0 = .nan) (i : Nat) (h : p ≤ i) :
    minF p x i = minF p (fun j => x (j + 1)) (i - 1) := by
  rw [minF, winTree_nan hp h0, if_neg (by omega), minF, show i - 1 + 1 = i by omega]

/-! ## The slopes -/

/-- The points `(j, f b)` of the series, for the bar `b` at index `j`. -/
def indexed (f : Bar K → K) (bs : List (Bar K)) : List (K × K) :=
  ((List.range bs.length).map Nat.cast).zip (bs.map f)

theorem indexed_tab (f : Bar K → K) (bs : List (Bar K)) :
    indexed f bs = tab bs.length fun k => ((k : K), col f bs k) :=
  eq_tab_of_forall (by simp [indexed]) fun k hk => by
    rw [indexed, List.getElem?_zip_eq_some]
    simp [hk, col]

theorem mls_slope {p : Nat} (hp : 2 ≤ p) (a : Nat → K) {j : Nat} (h1 : 1 ≤ j) :
    ∃ m b, mlsM p absc (finF a) j = .fin m ∧
      ∀ n, j < n → IsBestLine (window p j (tab n fun k => ((k : K), a k))) m b := by
  obtain ⟨ms, cs, rs, e, -, -, -, -, h⟩ := C24_moving_least_square p (by omega)
    (tab (j + 1) (Nat.cast : Nat → K)) (tab (j + 1) a) (by simp)
  have e1 : fins (tab (j + 1) (Nat.cast : Nat → K)) = tab (j + 1) absc := by
    rw [fins_tab]
    refine tab_ext fun j _ => ?_
    simp [absc]
  have hz : (tab (j + 1) (Nat.cast : Nat → K)).zip (tab (j + 1) a) = tab (j + 1) fun k => ((k : K), a k) := by
    rw [List.zip, zipWith_tab, Nat.min_self]
  rw [e1, fins_tab, MovingLeastSquare_tab] at e
  simp only [Except.ok.injEq, Prod.mk.injEq] at e
  rw [hz] at h
  obtain ⟨m, b, hm, -, -, hbest⟩ := h j (j : K) (tab_getElem?_lt (by omega)) (by
    have hw : ∀ k, j + 1 ≤ k + p → k ≤ j → ((k : K), a k) ∈ window p j (tab (j + 1) fun k => ((k : K), a k)) := by
      intro k k1 k2
      rw [window, List.mem_iff_getElem?]
      refine ⟨k - (j + 1 - p), ?_⟩
      rw [List.getElem?_drop, List.getElem?_take, if_pos (by omega), show j + 1 - p + (k - (j + 1 - p)) = k by omega,
        tab_getElem?_lt (by omega)]
    refine ⟨_, hw j (by omega) (by omega), _, hw (j - 1) (by omega) (by omega), ?_⟩
    show (j : K) ≠ ((j - 1 : Nat) : K)
    intro h
    have := Nat.cast_injective h
    omega)
  rw [← e.1, tab_getElem?_lt (by omega), Option.some.injEq] at hm
  refine ⟨m, b, hm, fun n hn => ?_⟩
  rw [window_tab _ (by omega)] at hbest ⊢
  · exact hbest

theorem mls_first {p : Nat} (hp : 0 < p) (a : Nat → K) : mlsM p absc (finF a) 0 = .nan := by
  have ha : (absc : Nat → XF K) = finF fun j => (j : K) := by
    funext j; simp [absc, finF]
  rw [ha, mlsM, lsM]
  have q1 : (fun j => (finF (fun j => (j : K)) j *. finF (fun j => (j : K)) j : XF K)) = finF fun j => (j : K) * j := rfl
  have q2 : (fun j => (finF (fun j => (j : K)) j *. finF a j : XF K)) = finF fun j => (j : K) * a j := rfl
  rw [q1, q2]
  have hs : ∀ g : Nat → K, runSum p (finF g) (0 + 1) = .fin (g 0) := by
    intro g
    rw [runSum_fin, show 0 + 1 - p = 0 by omega]
    simp [psum]
  have hn : mlsN p 0 = 1 := by rw [mlsN, if_neg (by omega)]; rfl
  rw [hs, hs, hs, hs, hn]
  simp [div_fin_eq, infSign]

/-- **C88**, ProjectionOscillator, what it computes: from the slopes of the least-squares lines through the last `p`
highs and lows, the bands `U` = highest `high + slope * index` and `L` = lowest `low + slope * index` of the last `p`
candles; the oscillator is `(close - L) / (U - L) * 100` (0 when the bands coincide), and 0 on the first `p` candles;
the signal line is its exponential average. Partial: with the absolute index in place of the distance from the current
candle the oscillator is not a percentage, see `C88_projection_refuted`. -/
theorem C88_projection_partial {p s : Nat} (hp : 2 ≤ p) {it : Item (XF K)} {bs : List (Bar K)} (hb : Holds it bs)
    {d : List (Projection.Data (XF K))} (hd : (Projection p s).data it = .ok d) :
    ∃ mh ml po : Nat → K,
      (∀ j, 1 ≤ j → j < bs.length → ∃ b, IsBestLine (window p j (indexed Bar.h bs)) (mh j) b) ∧
      (∀ j, 1 ≤ j → j < bs.length → ∃ b, IsBestLine (window p j (indexed Bar.l bs)) (ml j) b) ∧
      (∀ i < p, po i = 0) ∧
      (∀ i, p ≤ i → i < bs.length → ∃ U L : K,
        IsGreatest {v | ∃ j, i + 1 ≤ j + p ∧ j ≤ i ∧ col Bar.h bs j + mh j * j = v} U ∧
        IsLeast {v | ∃ j, i + 1 ≤ j + p ∧ j ≤ i ∧ col Bar.l bs j + ml j * j = v} L ∧
        po i = (col Bar.c bs i - L) / (U - L) * 100) ∧
      ∀ (i : Nat) (r : Projection.Data (XF K)), d[i]? = some r → r.po = .fin (po i) ∧ r.spo = .fin (expMean s po i) := by
  obtain ⟨x, hx, hc⟩ := hb.full
  have slope : ∀ f : Bar K → K, ∃ m : Nat → K, ∀ j, 1 ≤ j →
      mlsM p absc (finF (col f bs)) j = .fin (m j) ∧
        (j < bs.length → ∃ b, IsBestLine (window p j (indexed f bs)) (m j) b) := by
    intro f
    have : ∀ j, ∃ m : K, 1 ≤ j → mlsM p absc (finF (col f bs)) j = .fin m ∧
        (j < bs.length → ∃ b, IsBestLine (window p j (indexed f bs)) m b) := by
      intro j
      by_cases h : 1 ≤ j
      · obtain ⟨m, b, h1, h2⟩ := mls_slope hp (col f bs) h
        exact ⟨m, fun _ => ⟨h1, fun hj => ⟨b, indexed_tab f bs ▸ h2 _ hj⟩⟩⟩
      · exact ⟨0, fun h1 => absurd h1 h⟩
    choose m hm using this
    exact ⟨m, hm⟩
  obtain ⟨mh, hmh⟩ := slope Bar.h
  obtain ⟨ml, hml⟩ := slope Bar.l
  have ha : (absc : Nat → XF K) = finF fun j => (j : K) := by
    funext j; simp [absc, finF]
  have hhi0 : projHi p x 0 = .nan := by
    rw [projHi, hc.hi, mls_first (by omega)]; rfl
  have hlo0 : projLo p x 0 = .nan := by
    rw [projLo, hc.lo, mls_first (by omega)]; rfl
  have hhi : (fun j => projHi p x (j + 1)) = finF fun j => col Bar.h bs (j + 1) + mh (j + 1) * ((j + 1 : Nat) : K) := by
    funext j
    rw [projHi, hc.hi, (hmh (j + 1) (by omega)).1, ha]
    rfl
  have hlo : (fun j => projLo p x (j + 1)) = finF fun j => col Bar.l bs (j + 1) + ml (j + 1) * ((j + 1 : Nat) : K) := by
    funext j
    rw [projLo, hc.lo, (hml (j + 1) (by omega)).1, ha]
    rfl
  have hpo : ∀ i, ∃ v : K, projF p x i = .fin v ∧ (i < p → v = 0) ∧ (p ≤ i → ∃ U L : K,
        IsGreatest {v | ∃ j, i + 1 ≤ j + p ∧ j ≤ i ∧ col Bar.h bs j + mh j * j = v} U ∧
        IsLeast {v | ∃ j, i + 1 ≤ j + p ∧ j ≤ i ∧ col Bar.l bs j + ml j * j = v} L ∧
        v = (col Bar.c bs i - L) / (U - L) * 100) := by
    intro i
    by_cases h : i < p
    · refine ⟨0, ?_, fun _ => rfl, fun h' => by omega⟩
      rw [projF, (maxF_nan (by omega) hhi0 i).1 h]
      have h1 : ∀ b : XF K, subF .nan b = .nan := fun b => by cases b <;> rfl
      have h2 : ∀ a : XF K, safeDiv a .nan = .fin 0 := fun a => by
        have : a /. .nan = .nan := by cases a <;> rfl
        rw [safeDiv, this]
        simp
      rw [h1, h2]
    · obtain ⟨U, eU, hU⟩ := maxF_fin (p := p) (by omega)
        (fun j => col Bar.h bs (j + 1) + mh (j + 1) * ((j + 1 : Nat) : K)) (i - 1)
      obtain ⟨L, eL, hL⟩ := minF_fin (p := p) (by omega)
        (fun j => col Bar.l bs (j + 1) + ml (j + 1) * ((j + 1 : Nat) : K)) (i - 1)
      have shift : ∀ g : Nat → K, {v | ∃ j, i - 1 + 1 ≤ j + p ∧ j ≤ i - 1 ∧ g (j + 1) = v} =
          {v | ∃ j, i + 1 ≤ j + p ∧ j ≤ i ∧ g j = v} := by
        intro g
        ext v
        constructor
        · rintro ⟨j, h1, h2, rfl⟩; exact ⟨j + 1, by omega, by omega, rfl⟩
        · rintro ⟨j, h1, h2, rfl⟩
          exact ⟨j - 1, by omega, by omega, by rw [show j - 1 + 1 = j by omega]⟩
      refine ⟨(col Bar.c bs i - L) / (U - L) * 100, ?_, fun h' => absurd h' h, fun _ => ⟨U, L, ?_, ?_, rfl⟩⟩
      · rw [projF, (maxF_nan (by omega) hhi0 i).2 (by omega), minF_nan (by omega) hlo0 i (by omega), hhi, hlo, eU, eL,
          hc.cl]
        simp only [finF, subF_fin, fl_fin, mul_fin]
        rw [safeDiv_fin_eq]
        congr 1
        push_cast; ring
      · rw [← shift fun j => col Bar.h bs j + mh j * (j : K)]; exact hU
      · rw [← shift fun j => col Bar.l bs j + ml j * (j : K)]; exact hL
  choose po e1 e2 e3 using hpo
  have hproj : projF p x = finF po := funext e1
  refine ⟨mh, ml, po, fun j h1 h2 => (hmh j h1).2 h2, fun j h1 h2 => (hml j h1).2 h2, e2, fun i h _ => e3 i h,
    fun i r hr => ?_⟩
  obtain ⟨-, -, rfl⟩ := at_full (Projection.appends p s).yields hx hd hr
  refine ⟨?_, ?_⟩
  · show projF (p : Int).toNat x i = _
    rw [Int.toNat_natCast, e1]
  · show emaF s (projF (p : Int).toNat x) i = _
    rw [Int.toNat_natCast, hproj, emaF_expMean]

example : Holds (barItem (flatBars [(1 : ℚ), 2, 4, 3, 5])) (flatBars [1, 2, 4, 3, 5]) ∧
    ((Projection 2 3).data (barItem (flatBars [(1 : ℚ), 2, 4, 3, 5]))).toOption.map (·.length) = some 5 :=
  ⟨holds_barItem _, by decide +kernel⟩

/-- C88 refuted: on a steadily rising market the oscillator drops below 0, below its signal line, and the strategy
sells; on a steadily falling one it exceeds 100 and the strategy buys. -/
theorem C88_projection_refuted :
    ((Projection 3 2).data (barItem (flatBars [(1 : ℚ), 2, 3, 4, 5, 6]))).toOption.map (·.map (·.po)) =
      some [.fin 0, .fin 0, .fin 0, .fin 25, .fin 0, .fin (-25)] ∧
    (Projection 3 2).signals (barItem (flatBars [(1 : ℚ), 2, 3, 4, 5, 6])) =
      .ok [Buy, Hold, Hold, Buy, Sell, Sell] ∧
    ((Projection 3 2).data (barItem (flatBars [(6 : ℚ), 5, 4, 3, 2, 1]))).toOption.map (·.map (·.po)) =
      some [.fin 0, .fin 0, .fin 0, .fin 75, .fin 100, .fin 125] ∧
    (Projection 3 2).signals (barItem (flatBars [(6 : ℚ), 5, 4, 3, 2, 1])) =
      .ok [Buy, Hold, Hold, Buy, Buy, Buy] := by
  refine ⟨?_, ?_, ?_, ?_⟩ <;> decide +kernel

end Verif.Props
