import Verif.Props.CoarseTwice

/-!
# C153: upscaling batch by batch

A download arrives in batches, and each can be upscaled when it arrives. If every batch but the last is a whole number of coarse candles,
appending the results gives what upscaling the whole series gives.
-/

set_option linter.unusedSectionVars false

namespace Verif.Props
open Verif Verif.Klines GoFloat XF

variable {K : Type} [Field K] [LinearOrder K] [IsStrictOrderedRing K]

theorem maxOn_shift {f : Nat → K} {d lo hi : Nat} {y : K} (h : IsMaxOn (fun x => f (d + x)) lo hi y) :
    IsMaxOn f (d + lo) (d + hi) y := by
  obtain ⟨⟨i, i1, i2, i3⟩, hub⟩ := h
  refine ⟨⟨d + i, by omega, by omega, i3⟩, ?_⟩
  rintro z ⟨x, x1, x2, rfl⟩
  exact hub ⟨x - d, by omega, by omega, by dsimp only; rw [Nat.add_sub_cancel' (by omega)]⟩

theorem minOn_shift {f : Nat → K} {d lo hi : Nat} {y : K} (h : IsMinOn (fun x => f (d + x)) lo hi y) :
    IsMinOn f (d + lo) (d + hi) y := by
  obtain ⟨⟨i, i1, i2, i3⟩, hlb⟩ := h
  refine ⟨⟨d + i, by omega, by omega, i3⟩, ?_⟩
  rintro z ⟨x, x1, x2, rfl⟩
  exact hlb ⟨x - d, by omega, by omega, by dsimp only; rw [Nat.add_sub_cancel' (by omega)]⟩

theorem LowSinceGap.shift {f : Nat → K} {d lo hi : Nat} {y : K} (hlt : lo < hi) (h : LowSinceGap (fun x => f (d + x)) lo hi y) :
    LowSinceGap f (d + lo) (d + hi) y := by
  have e1 : d + hi - 1 = d + (hi - 1) := by omega
  refine ⟨fun g => h.1 (by rw [e1] at g; exact g), fun g => ?_⟩
  obtain ⟨s, s1, s2, s3, s4, s5⟩ := h.2 (by rw [e1] at g; exact g)
  refine ⟨d + s, by omega, by omega, fun i i1 i2 => ?_, ?_, minOn_shift s5⟩
  · have := s3 (i - d) (by omega) (by omega)
    dsimp only at this
    rwa [Nat.add_sub_cancel' (by omega)] at this
  · by_cases c : s = lo
    · exact .inl (by rw [c])
    · refine .inr ?_
      have := s4.resolve_left c
      rw [show d + s - 1 = d + (s - 1) by omega]
      exact this

theorem LowSinceGap.unique {f : Nat → K} {lo hi : Nat} {y z : K} (h : LowSinceGap f lo hi y) (h' : LowSinceGap f lo hi z) : y = z := by
  by_cases g : f (hi - 1) = 0
  · rw [h.1 g, h'.1 g]
  · obtain ⟨s, s1, s2, s3, s4, s5⟩ := h.2 g
    obtain ⟨t, t1, t2, t3, t4, t5⟩ := h'.2 g
    have hst : s = t := by
      rcases Nat.lt_trichotomy s t with c | c | c
      · exact absurd (t4.resolve_left (by omega)) (s3 (t - 1) (by omega) (by omega))
      · exact c
      · exact absurd (s4.resolve_left (by omega)) (t3 (s - 1) (by omega) (by omega))
    subst hst
    exact IsLeast.unique s5 t5

theorem GapBucket.ext {o h l c v : Nat → K} {lo r hi : Nat} {t : Int} {b b' : Candle (XF K)}
    (p : GapBucket o h l c v lo r hi t b) (q : GapBucket o h l c v lo r hi t b') : b = b' := by
  obtain ⟨y, y1, y2⟩ := p.low
  obtain ⟨z, z1, z2⟩ := q.low
  have hlow : b.low = b'.low := by rw [y1, z1, y2.unique z2]
  have := GapBucket.unique p q
  rw [← hlow] at this
  exact this

theorem GapBucket.shift {o h l c v : Nat → K} {d lo r hi : Nat} {t : Int} {b : Candle (XF K)} (hr : 0 < r) (hlt : lo < hi)
    (p : GapBucket (fun x => o (d + x)) (fun x => h (d + x)) (fun x => l (d + x)) (fun x => c (d + x)) (fun x => v (d + x)) lo r hi t b) :
    GapBucket o h l c v (d + lo) r (d + hi) t b := by
  have e1 : d + lo + r - 1 = d + (lo + r - 1) := by omega
  obtain ⟨y, y1, y2⟩ := p.high
  obtain ⟨w, w1, w2⟩ := p.low
  refine ⟨p.time, p.open_, by rw [e1]; exact p.close, ⟨y, y1, maxOn_shift y2⟩, ⟨w, w1, w2.shift hlt⟩, ?_,
    by rw [e1]; exact p.change, by rw [e1]; exact p.change_inf, by rw [e1]; exact p.change_ninf, by rw [e1]; exact p.change_nan,
    by rw [e1]; exact p.bull, p.amount, p.count⟩
  rw [p.volume, Finset.sum_Ico_add v, Nat.add_comm lo d, Nat.add_comm (lo + r) d, Nat.add_assoc]

/-- **C153.** For every gap-free series of finite prices without negative lows, padded or not, that starts on a multiple of the new interval, and every cut
after `a >= 1` whole coarse candles with at least one more behind it: both parts can be upscaled, and the results one after the other are
the candles of the whole series upscaled. -/
theorem C153_parts (now : Int) (e : Item (XF K)) (n r a : Nat) (o h l c v : Nat → K)
    (hn : e.candles.length = n) (hi : 0 < e.interval) (hr : 2 ≤ r) (ha : 1 ≤ a) (han : a * r + r ≤ n) (t0 : Int) (ht0 : 0 < t0)
    (hgap : ∀ (x : Nat) (b : Candle (XF K)), e.candles[x]? = some b →
      ofUnix b.timeUnix = ofUnix t0 + x * e.interval)
    (hprice : ∀ (x : Nat) (b : Candle (XF K)), e.candles[x]? = some b →
      Priced b b.timeUnix (o x) (h x) (l x) (c x) (v x))
    (hl : ∀ x, 0 ≤ l x) (halign : r * e.interval ∣ ofUnix t0 + zeroOffset) :
    ∃ it1 it2 it, ConvertToNewInterval now (some { e with candles := e.candles.take (a * r) }) (r * e.interval) = .ok (.ok it1) ∧
      ConvertToNewInterval now (some { e with candles := e.candles.drop (a * r) }) (r * e.interval) = .ok (.ok it2) ∧
      ConvertToNewInterval now (some e) (r * e.interval) = .ok (.ok it) ∧ it.candles = it1.candles ++ it2.candles := by
  have hr0 : 0 < r := by omega
  have har : r ≤ a * r := Nat.le_mul_of_pos_left r (by omega)
  obtain ⟨sec, hsec⟩ : ∃ sec : Int, e.interval = sec * nsec := by
    obtain ⟨b, hb⟩ : ∃ b, e.candles[1]? = some b := ⟨_, List.getElem?_eq_getElem (by omega)⟩
    have h1 := hgap 1 b hb
    refine ⟨b.timeUnix - t0, ?_⟩
    unfold ofUnix at h1
    rw [sub_mul, h1]; simp
  have hnp : (nsec : Int) ≠ 0 := by decide
  have hnpos : (0 : Int) < nsec := by decide
  have hsecpos : 0 < sec := by
    by_contra hneg
    have := Int.mul_le_mul_of_nonneg_right (show sec ≤ 0 by omega) (le_of_lt hnpos)
    omega
  have hunix : ∀ m : Int, unix (m * e.interval) = m * sec := fun m => by
    unfold unix
    rw [hsec, ← mul_assoc, Int.mul_ediv_cancel _ hnp]
  have hstart : ofUnix (t0 + (a * r : Nat) * sec) = ofUnix t0 + (a * r : Nat) * e.interval := by
    unfold ofUnix
    rw [hsec]; ring
  obtain ⟨it, e3, -, -, n3, b3⟩ := C151_gaps now e n r o h l c v hn hi hr (by omega) t0 ht0 hgap hprice hl halign
  obtain ⟨it1, e1, -, -, n1, b1⟩ := C151_gaps now { e with candles := e.candles.take (a * r) } (a * r) r o h l c v
    (by simp only [List.length_take]; omega) hi hr har t0 ht0
    (fun x b hb => hgap x b (by
      rw [List.getElem?_take] at hb
      split at hb
      · exact hb
      · cases hb))
    (fun x b hb => hprice x b (by
      rw [List.getElem?_take] at hb
      split at hb
      · exact hb
      · cases hb)) hl halign
  obtain ⟨it2, e2, -, -, n2, b2⟩ := C151_gaps now { e with candles := e.candles.drop (a * r) } (n - a * r) r
    (fun x => o (a * r + x)) (fun x => h (a * r + x)) (fun x => l (a * r + x)) (fun x => c (a * r + x)) (fun x => v (a * r + x))
    (by simp only [List.length_drop]; omega) hi hr (by omega) (t0 + (a * r : Nat) * sec)
    (by have := Int.mul_nonneg (show (0 : Int) ≤ (a * r : Nat) by omega) (le_of_lt hsecpos); omega)
    (fun x b hb => by
      dsimp only at hb ⊢
      rw [List.getElem?_drop] at hb
      rw [hgap _ b hb, hstart]
      push_cast; ring)
    (fun x b hb => by
      dsimp only at hb
      rw [List.getElem?_drop] at hb
      exact hprice _ b hb)
    (fun x => hl _)
    (by
      rw [hstart]
      have : ofUnix t0 + (a * r : Nat) * e.interval + zeroOffset = ofUnix t0 + zeroOffset + r * e.interval * a := by push_cast; ring
      rw [this]
      exact dvd_add halign (Dvd.intro _ rfl))
  dsimp only at e1 e2
  refine ⟨it1, it2, it, e1, e2, e3, ?_⟩
  rw [Nat.mul_div_cancel _ hr0] at n1
  have hdiv : n / r = a + (n - a * r) / r := by
    conv_lhs => rw [show n = n - a * r + a * r by omega]
    rw [Nat.add_mul_div_right _ _ hr0, Nat.add_comm]
  have hpos : 1 ≤ (n - a * r) / r := Nat.div_pos (by omega) hr0
  refine List.ext_getElem? fun j => ?_
  rcases Nat.lt_or_ge j (n / r) with hj | hj
  · obtain ⟨b, hb⟩ : ∃ b, it.candles[j]? = some b := ⟨_, List.getElem?_eq_getElem (by omega)⟩
    have p := b3 j b hb
    rw [hb]
    rcases Nat.lt_or_ge j a with hja | hja
    · rw [List.getElem?_append_left (by omega)]
      obtain ⟨b', hb'⟩ : ∃ b, it1.candles[j]? = some b := ⟨_, List.getElem?_eq_getElem (by omega)⟩
      have q := b1 j b' hb'
      rw [hb']
      refine congrArg some (GapBucket.ext p ?_)
      have : (if j + 1 = a * r / r then a * r else j * r + r) = if j + 1 = n / r then n else j * r + r := by
        rw [Nat.mul_div_cancel _ hr0, if_neg (show j + 1 ≠ n / r by omega)]
        split_ifs with g
        · rw [← g, Nat.succ_mul]
        · rfl
      rw [this] at q
      exact q
    · rw [List.getElem?_append_right (by omega), n1]
      obtain ⟨b', hb'⟩ : ∃ b, it2.candles[j - a]? = some b := ⟨_, List.getElem?_eq_getElem (by omega)⟩
      have q := (b2 (j - a) b' hb').shift hr0 (by split_ifs with g <;> [skip; omega]; have : (j - a + 1) * r ≤ n - a * r := g ▸ Nat.div_mul_le_self _ _; rw [Nat.succ_mul] at this; omega)
      rw [hb']
      refine congrArg some (GapBucket.ext p ?_)
      have h1 : a * r + (j - a) * r = j * r := by rw [← Nat.add_mul, Nat.add_sub_cancel' hja]
      have h2 : a * r + (if j - a + 1 = (n - a * r) / r then n - a * r else (j - a) * r + r) = if j + 1 = n / r then n else j * r + r := by
        by_cases g : j + 1 = n / r
        · rw [if_pos g, if_pos (by omega)]; omega
        · rw [if_neg g, if_neg (by omega)]; omega
      have h3 : t0 + ((a * r : Nat) : Int) * sec + ((j - a : Nat) : Int) * unix (r * e.interval) = t0 + (j : Int) * unix (r * e.interval) := by
        rw [hunix, Nat.cast_sub hja]; push_cast; ring
      rw [h1, h2] at q
      dsimp only at q
      rw [h3] at q
      exact q
  · rw [List.getElem?_eq_none (by omega), List.getElem?_eq_none (by rw [List.length_append]; omega)]

example : ∃ it1 it2 it,
    ConvertToNewInterval 0 (some { ninthLeft with candles := ninthLeft.candles.take 4 }) ((2 : Nat) * (60 * nsec)) = .ok (.ok it1) ∧
    ConvertToNewInterval 0 (some { ninthLeft with candles := ninthLeft.candles.drop 4 }) ((2 : Nat) * (60 * nsec)) = .ok (.ok it2) ∧
    ConvertToNewInterval 0 (some ninthLeft) ((2 : Nat) * (60 * nsec)) = .ok (.ok it) ∧ it.candles = it1.candles ++ it2.candles :=
  C153_parts 0 ninthLeft 9 2 2
    (fun i => [2, 3, 4, 5, 6, 7, 5, 4, 3].getD i 1) (fun i => [5, 4, 6, 7, 9, 8, 6, 5, 10].getD i 1)
    (fun i => [1, 2, 3, 4, 5, 3, 4, 2, 1].getD i 1) (fun i => [3, 4, 5, 6, 7, 5, 4, 3, 2].getD i 1)
    (fun i => [1, 2, 3, 4, 5, 1, 2, 3, 9].getD i 1) rfl (by decide) (by decide) (by decide) (by decide) 240 (by decide)
    (by
      intro x b hx
      match x, hx with
      | 0, hx | 1, hx | 2, hx | 3, hx | 4, hx | 5, hx | 6, hx | 7, hx | 8, hx => cases hx; rfl)
    (by
      intro x b hx
      match x, hx with
      | 0, hx | 1, hx | 2, hx | 3, hx | 4, hx | 5, hx | 6, hx | 7, hx | 8, hx => cases hx; exact ⟨rfl, rfl, rfl, rfl, rfl, rfl⟩)
    (by
      intro x
      match x with
      | 0 | 1 | 2 | 3 | 4 | 5 | 6 | 7 | 8 => norm_num
      | x + 9 => simp)
    (by decide)

/-- Times, highs and volumes of the candles of `cs` upscaled from one minute to two. -/
def twoMinuteRows (cs : List (Candle (XF ℚ))) : List (Int × XF ℚ × XF ℚ) :=
  match ConvertToNewInterval 0 (some { ninthLeft with candles := cs }) (120 * nsec) with
  | .ok (.ok it) => it.candles.map fun b => (b.timeUnix, b.high, b.volume)
  | _ => []

/-- **C153 is false for other cuts**: nine minutes upscaled at once give four candles, and the minute at 540 counts to the candle at 480.
Cut after the fifth minute, the first part shows the high 9 of that minute in the candle at 360, no candle covers 480, and the second
part ends with an empty candle although the minutes 660 and 720 were traded. -/
theorem C153_cut_refuted :
    twoMinuteRows ninthLeft.candles = [(240, .fin 5, .fin 3), (360, .fin 7, .fin 7), (480, .fin 9, .fin 6), (600, .fin 10, .fin 5)] ∧
    twoMinuteRows (ninthLeft.candles.take 5) = [(240, .fin 5, .fin 3), (360, .fin 9, .fin 7)] ∧
    twoMinuteRows (ninthLeft.candles.drop 5) = [(600, .fin 6, .fin 5), (720, .fin 0, .fin 0)] := by
  decide +kernel

end Verif.Props
