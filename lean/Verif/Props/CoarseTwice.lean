import Verif.Props.PadCoarse

/-!
# C152: upscaling in two steps

One-minute candles are turned into quarters and those into hours, or the minutes into hours at once. Both ways give the same candles
(C15 applied three times), left-over candles included, unless the series contains empty candles.
-/

set_option linter.unusedSectionVars false

namespace Verif.Props
open Verif Verif.Klines GoFloat XF

variable {K : Type} [Field K] [LinearOrder K] [IsStrictOrderedRing K]

/-- The end of the `i`-th of `M` buckets of `r` candles out of `n`: the last one takes the rest. -/
def bucketEnd (n r M i : Nat) : Nat := if i + 1 = M then n else i * r + r

theorem bucketEnd_le {n r M i k : Nat} (hM : M * r ≤ n) (hik : i ≤ k) (hk : k < M) : bucketEnd n r M i ≤ bucketEnd n r M k := by
  unfold bucketEnd
  have h1 : (i + 1) * r ≤ (k + 1) * r := Nat.mul_le_mul_right _ (by omega)
  have h2 : (k + 1) * r ≤ M * r := Nat.mul_le_mul_right _ (by omega)
  rw [Nat.succ_mul] at h1 h2
  rw [Nat.succ_mul] at h1
  split_ifs <;> omega

theorem bucket_cover {n r M j0 j1 x : Nat} (hr : 0 < r) (hj : j0 < j1) (h1 : j1 ≤ M) (hx : j0 * r ≤ x)
    (hx' : x < bucketEnd n r M (j1 - 1)) : ∃ i, j0 ≤ i ∧ i < j1 ∧ i * r ≤ x ∧ x < bucketEnd n r M i := by
  by_cases c : x / r < j1 - 1
  · refine ⟨x / r, (Nat.le_div_iff_mul_le hr).2 hx, by omega, Nat.div_mul_le_self x r, ?_⟩
    have := Nat.lt_div_mul_add (a := x) hr
    unfold bucketEnd
    rw [if_neg (by omega)]
    exact this
  · exact ⟨j1 - 1, by omega, by omega, (Nat.le_div_iff_mul_le hr).1 (by omega), hx'⟩

theorem maxOn_stages {f H : Nat → K} {n r M j0 j1 : Nat} {y : K} (hr : 0 < r) (hM : M * r ≤ n) (hj : j0 < j1) (h1 : j1 ≤ M)
    (hH : ∀ i, i < M → IsMaxOn f (i * r) (bucketEnd n r M i) (H i)) (hy : IsMaxOn H j0 j1 y) :
    IsMaxOn f (j0 * r) (bucketEnd n r M (j1 - 1)) y := by
  obtain ⟨⟨i, i1, i2, rfl⟩, hub⟩ := hy
  constructor
  · obtain ⟨⟨x, x1, x2, x3⟩, -⟩ := hH i (by omega)
    exact ⟨x, le_trans (Nat.mul_le_mul_right _ i1) x1, lt_of_lt_of_le x2 (bucketEnd_le hM (by omega) (by omega)), x3⟩
  · rintro z ⟨x, x1, x2, rfl⟩
    obtain ⟨k, k1, k2, k3, k4⟩ := bucket_cover hr hj h1 x1 x2
    exact le_trans ((hH k (by omega)).2 ⟨x, k3, k4, rfl⟩) (hub ⟨k, k1, k2, rfl⟩)

theorem minOn_stages {f L : Nat → K} {n r M j0 j1 : Nat} {y : K} (hr : 0 < r) (hM : M * r ≤ n) (hj : j0 < j1) (h1 : j1 ≤ M)
    (hL : ∀ i, i < M → IsMinOn f (i * r) (bucketEnd n r M i) (L i)) (hy : IsMinOn L j0 j1 y) :
    IsMinOn f (j0 * r) (bucketEnd n r M (j1 - 1)) y := by
  obtain ⟨⟨i, i1, i2, rfl⟩, hlb⟩ := hy
  constructor
  · obtain ⟨⟨x, x1, x2, x3⟩, -⟩ := hL i (by omega)
    exact ⟨x, le_trans (Nat.mul_le_mul_right _ i1) x1, lt_of_lt_of_le x2 (bucketEnd_le hM (by omega) (by omega)), x3⟩
  · rintro z ⟨x, x1, x2, rfl⟩
    obtain ⟨k, k1, k2, k3, k4⟩ := bucket_cover hr hj h1 x1 x2
    exact le_trans (hlb ⟨k, k1, k2, rfl⟩) ((hL k (by omega)).2 ⟨x, k3, k4, rfl⟩)

theorem sum_stages (v : Nat → K) (r a s : Nat) :
    ∑ i ∈ Finset.Ico a (a + s), (∑ x ∈ Finset.Ico (i * r) (i * r + r), v x) = ∑ x ∈ Finset.Ico (a * r) (a * r + s * r), v x := by
  induction s with
  | zero => simp
  | succ s ih =>
    rw [← Nat.add_assoc, Finset.sum_Ico_succ_top (by omega), ih, Nat.succ_mul, ← Nat.add_assoc,
      show (a + s) * r = a * r + s * r by ring, Finset.sum_Ico_consecutive _ (by omega) (by omega)]

/-- Two candles that both sum up the same candles are equal. -/
theorem IsBucket.unique {o h l c v : Nat → K} {lo r hi : Nat} {t : Int} {b b' : Candle (XF K)} (ho : o lo ≠ 0)
    (p : IsBucket o h l c v lo r hi t b) (q : IsBucket o h l c v lo r hi t b') : b = b' := by
  obtain ⟨y, y1, y2⟩ := p.high
  obtain ⟨y', y1', y2'⟩ := q.high
  obtain ⟨w, w1, w2⟩ := p.low
  obtain ⟨w', w1', w2'⟩ := q.low
  have hy : y = y' := IsGreatest.unique y2 y2'
  have hw : w = w' := IsLeast.unique w2 w2'
  cases b; cases b'
  simp only [Candle.mk.injEq]
  exact ⟨p.amount.trans q.amount.symm, p.count.trans q.count.symm, p.open_.trans q.open_.symm, p.close.trans q.close.symm,
    w1.trans (hw ▸ w1'.symm), y1.trans (hy ▸ y1'.symm), p.volume.trans q.volume.symm, (p.change ho).trans (q.change ho).symm,
    p.bull.trans q.bull.symm, p.time.trans q.time.symm⟩

/-- **C152.** For every gap-free series of finite prices, opens and lows not 0, that starts on a multiple of the coarsest interval, and
all factors `r, s >= 2` with `r * s <= n`: upscaling by `r` and then by `s` gives candle for candle what upscaling by `r * s` gives - every
field, and also when candles are left over. -/
theorem C152_stages (now : Int) (e : Item (XF K)) (n r s : Nat) (o h l c v : Nat → K)
    (hn : e.candles.length = n) (hi : 0 < e.interval) (hr : 2 ≤ r) (hs : 2 ≤ s) (hrn : r * s ≤ n) (t0 : Int) (ht0 : 0 < t0)
    (hgap : ∀ (x : Nat) (b : Candle (XF K)), e.candles[x]? = some b →
      ofUnix b.timeUnix = ofUnix t0 + x * e.interval)
    (hprice : ∀ (x : Nat) (b : Candle (XF K)), e.candles[x]? = some b →
      Priced b b.timeUnix (o x) (h x) (l x) (c x) (v x))
    (ho : ∀ x, o x ≠ 0) (hl : ∀ x, l x ≠ 0) (halign : (r * s : Nat) * e.interval ∣ ofUnix t0 + zeroOffset) :
    ∃ it1 it2 it, ConvertToNewInterval now (some e) (r * e.interval) = .ok (.ok it1) ∧
      ConvertToNewInterval now (some it1) (s * it1.interval) = .ok (.ok it2) ∧
      ConvertToNewInterval now (some e) ((r * s : Nat) * e.interval) = .ok (.ok it) ∧
      it2.candles = it.candles ∧ it2.interval = it.interval ∧ it2.exchange = it.exchange := by
  have hr0 : 0 < r := by omega
  have h2s : 2 * r ≤ r * s := by rw [Nat.mul_comm 2 r]; exact Nat.mul_le_mul_left _ hs
  have hassoc : ((r * s : Nat) : Int) * e.interval = (s : Int) * ((r : Int) * e.interval) := by push_cast; ring
  -- the interval is a whole number of seconds
  obtain ⟨sec, hsec⟩ : ∃ sec : Int, e.interval = sec * nsec := by
    obtain ⟨b, hb⟩ : ∃ b, e.candles[1]? = some b := by
      exact ⟨_, List.getElem?_eq_getElem (by omega)⟩
    have h1 := hgap 1 b hb
    refine ⟨b.timeUnix - t0, ?_⟩
    unfold ofUnix at h1
    rw [sub_mul, h1]; simp
  have hnp : (nsec : Int) ≠ 0 := by decide
  have hunix : ∀ m : Int, unix (m * e.interval) = m * sec := fun m => by
    unfold unix
    rw [hsec, ← mul_assoc, Int.mul_ediv_cancel _ hnp]
  obtain ⟨it1, e1, x1, i1, n1, b1⟩ := C15_upscale_partial now e n r o h l c v hn hi hr (by omega) t0 ht0 hgap hprice hl
    (dvd_trans ⟨(s : Int), by push_cast; ring⟩ halign)
  obtain ⟨it, e3, x3, i3, n3, b3⟩ := C15_upscale_partial now e n (r * s) o h l c v hn hi (by omega) hrn t0 ht0 hgap hprice hl halign
  -- the prices of the intermediate candles
  set M := n / r with hM
  have hMr : M * r ≤ n := Nat.div_mul_le_self n r
  have hsM : s ≤ M := (Nat.le_div_iff_mul_le hr0).2 (by rw [Nat.mul_comm]; exact hrn)
  have hall : ∀ j, ∃ y w, w ≠ 0 ∧ (∀ b, it1.candles[j]? = some b → b.high = .fin y ∧ b.low = .fin w) ∧
      (j < M → IsMaxOn h (j * r) (bucketEnd n r M j) y ∧ IsMinOn l (j * r) (bucketEnd n r M j) w) := by
    intro j
    rcases Nat.lt_or_ge j M with hj | hj
    · obtain ⟨b, hb⟩ : ∃ b, it1.candles[j]? = some b := by
        exact ⟨_, List.getElem?_eq_getElem (by omega)⟩
      have q := b1 j b hb
      obtain ⟨y, y1, y2⟩ := q.high
      obtain ⟨w, w1, w2⟩ := q.low
      refine ⟨y, w, ?_, fun b' hb' => ?_, fun _ => ⟨y2, w2⟩⟩
      · obtain ⟨i, -, -, rfl⟩ := w2.1
        exact hl i
      · rw [hb] at hb'
        cases hb'
        exact ⟨y1, w1⟩
    · refine ⟨0, 1, one_ne_zero, fun b hb => ?_, fun h' => absurd h' (by omega)⟩
      rw [List.getElem?_eq_none (by omega)] at hb
      cases hb
  choose H L hL0 hHL hHL' using hall
  obtain ⟨it2, e2, x2, i2, n2, b2⟩ := C15_upscale_partial now it1 M s (fun j => o (j * r)) H L (fun j => c (j * r + r - 1))
    (fun j => ∑ x ∈ Finset.Ico (j * r) (j * r + r), v x) n1 (by rw [i1]; exact Int.mul_pos (by omega) hi) hs hsM t0 ht0
    (by
      intro j b hb
      rw [(b1 j b hb).time, hunix, i1, hsec]
      unfold ofUnix
      ring)
    (fun j b hb => ⟨rfl, (b1 j b hb).open_, (hHL j b hb).1, (hHL j b hb).2, (b1 j b hb).close, (b1 j b hb).volume⟩)
    hL0 (by rw [i1, ← hassoc]; exact halign)
  refine ⟨it1, it2, it, e1, e2, e3, ?_, by rw [i2, i3, i1, hassoc], by rw [x2, x3, x1]⟩
  have hdd : M / s = n / (r * s) := by rw [hM, Nat.div_div_eq_div_mul]
  refine List.ext_getElem? fun j => ?_
  rcases Nat.lt_or_ge j (M / s) with hj | hj
  · obtain ⟨b, hb⟩ : ∃ b, it2.candles[j]? = some b := by
      exact ⟨_, List.getElem?_eq_getElem (by omega)⟩
    obtain ⟨b', hb'⟩ : ∃ b, it.candles[j]? = some b := by
      exact ⟨_, List.getElem?_eq_getElem (by omega)⟩
    have p := b2 j b hb
    have q := b3 j b' hb'
    rw [hb, hb']
    refine congrArg some (IsBucket.unique (ho _) ?_ q)
    have hjs : (j + 1) * s ≤ M := le_trans (Nat.mul_le_mul_right _ hj) (Nat.div_mul_le_self M s)
    rw [Nat.succ_mul] at hjs
    have hlo : j * s * r = j * (r * s) := by ring
    set j1 := if j + 1 = M / s then M else j * s + s with hj1
    have a1 : j * s < j1 := by rw [hj1]; split <;> omega
    have a2 : j1 ≤ M := by rw [hj1]; split <;> omega
    have hend : bucketEnd n r M (j1 - 1) = if j + 1 = n / (r * s) then n else j * (r * s) + r * s := by
      rw [← hdd, hj1]
      unfold bucketEnd
      by_cases g : j + 1 = M / s
      · rw [if_pos g, if_pos g, if_pos (by omega)]
      · have : j * s + s ≠ M := by
          intro g'
          apply g
          rw [← g', ← Nat.succ_mul, Nat.mul_div_cancel _ (by omega)]
        rw [if_neg g, if_neg g, if_neg (by omega), ← hlo, ← Nat.succ_mul, show (j * s + s - 1).succ = j * s + s by omega]
        ring
    refine ⟨?_, ?_, ?_, ?_, ?_, ?_, ?_, ?_, p.amount, p.count⟩
    · rw [p.time, i1, ← hassoc]
    · rw [p.open_, hlo]
    · rw [p.close, show (j * s + s - 1) * r + r - 1 = j * (r * s) + r * s - 1 by
        rw [← Nat.succ_mul, show (j * s + s - 1).succ = j * s + s by omega, Nat.add_mul, hlo, Nat.mul_comm s r]]
    · obtain ⟨y, y1, y2⟩ := p.high
      exact ⟨y, y1, by rw [← hend, ← hlo]; exact maxOn_stages hr0 hMr a1 a2 (fun i hi' => (hHL' i hi').1) y2⟩
    · obtain ⟨y, y1, y2⟩ := p.low
      exact ⟨y, y1, by rw [← hend, ← hlo]; exact minOn_stages hr0 hMr a1 a2 (fun i hi' => (hHL' i hi').2) y2⟩
    · rw [p.volume, sum_stages, hlo, Nat.mul_comm s r]
    · intro ho'
      rw [p.change (ho _), show (j * s + s - 1) * r + r - 1 = j * (r * s) + r * s - 1 by
        rw [← Nat.succ_mul, show (j * s + s - 1).succ = j * s + s by omega, Nat.add_mul, hlo, Nat.mul_comm s r], hlo]
    · rw [p.bull, show (j * s + s - 1) * r + r - 1 = j * (r * s) + r * s - 1 by
        rw [← Nat.succ_mul, show (j * s + s - 1).succ = j * s + s by omega, Nat.add_mul, hlo, Nat.mul_comm s r], hlo]
  · rw [List.getElem?_eq_none (by omega), List.getElem?_eq_none (by omega)]

/-- The part of `GapBucket` without the low determines every other field. -/
theorem GapBucket.unique {o h l l' c v : Nat → K} {lo r hi : Nat} {t : Int} {b b' : Candle (XF K)}
    (p : GapBucket o h l c v lo r hi t b) (q : GapBucket o h l' c v lo r hi t b') : { b with low := b'.low } = b' := by
  obtain ⟨y, y1, y2⟩ := p.high
  obtain ⟨y', y1', y2'⟩ := q.high
  have hy : y = y' := IsGreatest.unique y2 y2'
  have hch : b.changePercent = b'.changePercent := by
    by_cases ho : o lo = 0
    · rcases lt_trichotomy (c (lo + r - 1)) 0 with g | g | g
      · rw [p.change_ninf ho g, q.change_ninf ho g]
      · rw [p.change_nan ho g, q.change_nan ho g]
      · rw [p.change_inf ho g, q.change_inf ho g]
    · rw [p.change ho, q.change ho]
  cases b; cases b'
  simp only [Candle.mk.injEq]
  exact ⟨p.amount.trans q.amount.symm, p.count.trans q.count.symm, p.open_.trans q.open_.symm, p.close.trans q.close.symm,
    trivial, y1.trans (hy ▸ y1'.symm), p.volume.trans q.volume.symm, hch, p.bull.trans q.bull.symm, p.time.trans q.time.symm⟩

/-- Lows since the last gap, taken in two stages, reach back at least as far. -/
theorem lowSinceGap_stages {f L : Nat → K} {n r M j0 j1 : Nat} {y z : K} (hr : 0 < r) (hM : M * r ≤ n) (hj : j0 < j1) (h1 : j1 ≤ M)
    (hL : ∀ i, i < M → LowSinceGap f (i * r) (bucketEnd n r M i) (L i))
    (hy : LowSinceGap L j0 j1 y) (hz : LowSinceGap f (j0 * r) (bucketEnd n r M (j1 - 1)) z) : y ≤ z := by
  set e := bucketEnd n r M (j1 - 1) with he
  -- a bucket has low 0 exactly if it ends with a gap
  have hzero : ∀ i, i < M → L i = 0 → f (bucketEnd n r M i - 1) = 0 := by
    intro i hi h0
    by_contra g
    obtain ⟨s, -, -, s3, -, ⟨x, x1, x2, x3⟩, -⟩ := (hL i hi).2 g
    exact s3 x x1 x2 (by rw [← x3, h0])
  by_cases g : f (e - 1) = 0
  · rw [hz.1 g, hy.1 ((hL (j1 - 1) (by omega)).1 g)]
  · obtain ⟨s3, a1, a2, a3, a4, ⟨x, x1, x2, rfl⟩, -⟩ := hz.2 g
    have hne : L (j1 - 1) ≠ 0 := fun h0 => g (hzero _ (by omega) h0)
    obtain ⟨s2, c1, c2, c3, c4, c5⟩ := hy.2 hne
    obtain ⟨k, k1, k2, k3, k4⟩ := bucket_cover hr hj h1 (le_trans a1 x1) x2
    -- `x` lies behind the last bucket that ends with a gap
    have hk : s2 ≤ k := by
      rcases c4 with rfl | c4
      · exact k1
      · by_contra hlt
        have hs2 : j0 ≤ k ∧ k ≤ s2 - 1 := ⟨k1, by omega⟩
        have h0 := hzero (s2 - 1) (by omega) c4
        have e1 : bucketEnd n r M k ≤ bucketEnd n r M (s2 - 1) := bucketEnd_le hM hs2.2 (by omega)
        have e2 : bucketEnd n r M (s2 - 1) ≤ e := bucketEnd_le hM (by omega) (by omega)
        exact a3 (bucketEnd n r M (s2 - 1) - 1) (by omega) (by omega) h0
    refine le_trans (c5.2 ⟨k, hk, k2, rfl⟩) ?_
    have hke : f (bucketEnd n r M k - 1) ≠ 0 :=
      a3 _ (by omega) (by have := bucketEnd_le (n := n) hM (show k ≤ j1 - 1 by omega) (by omega); omega)
    obtain ⟨s', d1, d2, d3, d4, d5⟩ := (hL k (by omega)).2 hke
    refine d5.2 ⟨x, ?_, k4, rfl⟩
    rcases d4 with rfl | d4
    · exact k3
    · by_contra hlt
      exact a3 (s' - 1) (by omega) (by have := bucketEnd_le (n := n) hM (show k ≤ j1 - 1 by omega) (by omega); omega) d4

/-- **C152 for padded series.** For every gap-free series of finite prices and no negative low: upscaling by `r` and then by `s` gives candle
for candle what upscaling by `r * s` gives, except for the low, which is never higher by way of the interval in between. -/
theorem C152_padded (now : Int) (e : Item (XF K)) (n r s : Nat) (o h l c v : Nat → K)
    (hn : e.candles.length = n) (hi : 0 < e.interval) (hr : 2 ≤ r) (hs : 2 ≤ s) (hrn : r * s ≤ n) (t0 : Int) (ht0 : 0 < t0)
    (hgap : ∀ (x : Nat) (b : Candle (XF K)), e.candles[x]? = some b →
      ofUnix b.timeUnix = ofUnix t0 + x * e.interval)
    (hprice : ∀ (x : Nat) (b : Candle (XF K)), e.candles[x]? = some b →
      Priced b b.timeUnix (o x) (h x) (l x) (c x) (v x))
    (hl : ∀ x, 0 ≤ l x) (halign : (r * s : Nat) * e.interval ∣ ofUnix t0 + zeroOffset) :
    ∃ it1 it2 it, ConvertToNewInterval now (some e) (r * e.interval) = .ok (.ok it1) ∧
      ConvertToNewInterval now (some it1) (s * it1.interval) = .ok (.ok it2) ∧
      ConvertToNewInterval now (some e) ((r * s : Nat) * e.interval) = .ok (.ok it) ∧
      it2.candles.length = it.candles.length ∧
      (∀ (j : Nat) (b b' : Candle (XF K)), it2.candles[j]? = some b → it.candles[j]? = some b' →
        (b.low <=. b'.low : Bool) = true ∧ { b with low := b'.low } = b') ∧ it2.interval = it.interval ∧ it2.exchange = it.exchange := by
  have hr0 : 0 < r := by omega
  have h2s : 2 * r ≤ r * s := by rw [Nat.mul_comm 2 r]; exact Nat.mul_le_mul_left _ hs
  have hassoc : ((r * s : Nat) : Int) * e.interval = (s : Int) * ((r : Int) * e.interval) := by push_cast; ring
  -- the interval is a whole number of seconds
  obtain ⟨sec, hsec⟩ : ∃ sec : Int, e.interval = sec * nsec := by
    obtain ⟨b, hb⟩ : ∃ b, e.candles[1]? = some b := by
      exact ⟨_, List.getElem?_eq_getElem (by omega)⟩
    have h1 := hgap 1 b hb
    refine ⟨b.timeUnix - t0, ?_⟩
    unfold ofUnix at h1
    rw [sub_mul, h1]; simp
  have hnp : (nsec : Int) ≠ 0 := by decide
  have hunix : ∀ m : Int, unix (m * e.interval) = m * sec := fun m => by
    unfold unix
    rw [hsec, ← mul_assoc, Int.mul_ediv_cancel _ hnp]
  obtain ⟨it1, e1, x1, i1, n1, b1⟩ := C151_gaps now e n r o h l c v hn hi hr (by omega) t0 ht0 hgap hprice hl
    (dvd_trans ⟨(s : Int), by push_cast; ring⟩ halign)
  obtain ⟨it, e3, x3, i3, n3, b3⟩ := C151_gaps now e n (r * s) o h l c v hn hi (by omega) hrn t0 ht0 hgap hprice hl halign
  -- the prices of the intermediate candles
  set M := n / r with hM
  have hMr : M * r ≤ n := Nat.div_mul_le_self n r
  have hsM : s ≤ M := (Nat.le_div_iff_mul_le hr0).2 (by rw [Nat.mul_comm]; exact hrn)
  have hall : ∀ j, ∃ y w, 0 ≤ w ∧ (∀ b, it1.candles[j]? = some b → b.high = .fin y ∧ b.low = .fin w) ∧
      (j < M → IsMaxOn h (j * r) (bucketEnd n r M j) y ∧ LowSinceGap l (j * r) (bucketEnd n r M j) w) := by
    intro j
    rcases Nat.lt_or_ge j M with hj | hj
    · obtain ⟨b, hb⟩ : ∃ b, it1.candles[j]? = some b := by
        exact ⟨_, List.getElem?_eq_getElem (by omega)⟩
      have q := b1 j b hb
      obtain ⟨y, y1, y2⟩ := q.high
      obtain ⟨w, w1, w2⟩ := q.low
      refine ⟨y, w, ?_, fun b' hb' => ?_, fun _ => ⟨y2, w2⟩⟩
      · exact w2.nonneg hl
      · rw [hb] at hb'
        cases hb'
        exact ⟨y1, w1⟩
    · refine ⟨0, 1, zero_le_one, fun b hb => ?_, fun h' => absurd h' (by omega)⟩
      rw [List.getElem?_eq_none (by omega)] at hb
      cases hb
  choose H L hL0 hHL hHL' using hall
  obtain ⟨it2, e2, x2, i2, n2, b2⟩ := C151_gaps now it1 M s (fun j => o (j * r)) H L (fun j => c (j * r + r - 1))
    (fun j => ∑ x ∈ Finset.Ico (j * r) (j * r + r), v x) n1 (by rw [i1]; exact Int.mul_pos (by omega) hi) hs hsM t0 ht0
    (by
      intro j b hb
      rw [(b1 j b hb).time, hunix, i1, hsec]
      unfold ofUnix
      ring)
    (fun j b hb => ⟨rfl, (b1 j b hb).open_, (hHL j b hb).1, (hHL j b hb).2, (b1 j b hb).close, (b1 j b hb).volume⟩)
    hL0 (by rw [i1, ← hassoc]; exact halign)
  have hdd : M / s = n / (r * s) := by rw [hM, Nat.div_div_eq_div_mul]
  refine ⟨it1, it2, it, e1, e2, e3, by rw [n2, n3, hdd], ?_, by rw [i2, i3, i1, hassoc], by rw [x2, x3, x1]⟩
  intro j b b' hb hb'
  have hj : j < M / s := by
    by_contra g
    rw [List.getElem?_eq_none (by omega)] at hb
    cases hb
  have p := b2 j b hb
  have q := b3 j b' hb'
  have hjs : (j + 1) * s ≤ M := le_trans (Nat.mul_le_mul_right _ hj) (Nat.div_mul_le_self M s)
  rw [Nat.succ_mul] at hjs
  have hlo : j * s * r = j * (r * s) := by ring
  set j1 := if j + 1 = M / s then M else j * s + s with hj1
  have a1 : j * s < j1 := by rw [hj1]; split <;> omega
  have a2 : j1 ≤ M := by rw [hj1]; split <;> omega
  have hend : bucketEnd n r M (j1 - 1) = if j + 1 = n / (r * s) then n else j * (r * s) + r * s := by
    rw [← hdd, hj1]
    unfold bucketEnd
    by_cases g : j + 1 = M / s
    · rw [if_pos g, if_pos g, if_pos (by omega)]
    · have : j * s + s ≠ M := by
        intro g'
        apply g
        rw [← g', ← Nat.succ_mul, Nat.mul_div_cancel _ (by omega)]
      rw [if_neg g, if_neg g, if_neg (by omega), ← hlo, ← Nat.succ_mul, show (j * s + s - 1).succ = j * s + s by omega]
      ring
  have hlast : (j * s + s - 1) * r + r - 1 = j * (r * s) + r * s - 1 := by
    rw [← Nat.succ_mul, show (j * s + s - 1).succ = j * s + s by omega, Nat.add_mul, hlo, Nat.mul_comm s r]
  obtain ⟨y, y1, y2⟩ := p.low
  obtain ⟨z, z1, z2⟩ := q.low
  constructor
  · rw [y1, z1, le_fin, decide_eq_true_eq]
    rw [← hend, ← hlo] at z2
    exact lowSinceGap_stages hr0 hMr a1 a2 (fun i hi' => (hHL' i hi').2) y2 z2
  · -- the same candle with the other low
    have q' : GapBucket o h l c v (j * (r * s)) (r * s) (if j + 1 = n / (r * s) then n else j * (r * s) + r * s)
        (t0 + j * unix ((r * s : Nat) * e.interval)) { b with low := b'.low } := by
      refine ⟨?_, ?_, ?_, ?_, q.low, ?_, ?_, ?_, ?_, ?_, ?_, p.amount, p.count⟩
      · show b.timeUnix = _
        rw [p.time, i1, ← hassoc]
      · show b.open_ = _
        rw [p.open_, hlo]
      · show b.close = _
        rw [p.close, hlast]
      · obtain ⟨y, y1, y2⟩ := p.high
        exact ⟨y, y1, by rw [← hend, ← hlo]; exact maxOn_stages hr0 hMr a1 a2 (fun i hi' => (hHL' i hi').1) y2⟩
      · show b.volume = _
        rw [p.volume, sum_stages, hlo, Nat.mul_comm s r]
      · have := p.change; rw [hlast, hlo] at this; exact this
      · have := p.change_inf; rw [hlast, hlo] at this; exact this
      · have := p.change_ninf; rw [hlast, hlo] at this; exact this
      · have := p.change_nan; rw [hlast, hlo] at this; exact this
      · have := p.bull; rw [hlast, hlo] at this; exact this
    have := GapBucket.unique q' q
    exact this

/-- Nine one-minute candles; the ninth is left over at two and at four minutes. -/
def ninthLeft : Item (XF ℚ) where
  exchange := "x"
  interval := 60 * nsec
  symbol := ""
  code := ""
  candles := [candleOf 240 2 5 1 3 1, candleOf 300 3 4 2 4 2, candleOf 360 4 6 3 5 3, candleOf 420 5 7 4 6 4,
    candleOf 480 6 9 5 7 5, candleOf 540 7 8 3 5 1, candleOf 600 5 6 4 4 2, candleOf 660 4 5 2 3 3, candleOf 720 3 10 1 2 9]

example : ∃ it1 it2 it, ConvertToNewInterval 0 (some ninthLeft) ((2 : Nat) * (60 * nsec)) = .ok (.ok it1) ∧
    ConvertToNewInterval 0 (some it1) ((2 : Nat) * it1.interval) = .ok (.ok it2) ∧
    ConvertToNewInterval 0 (some ninthLeft) ((2 * 2 : Nat) * (60 * nsec)) = .ok (.ok it) ∧
    it2.candles = it.candles ∧ it2.interval = it.interval ∧ it2.exchange = it.exchange :=
  C152_stages 0 ninthLeft 9 2 2
    (fun i => [2, 3, 4, 5, 6, 7, 5, 4, 3].getD i 1) (fun i => [5, 4, 6, 7, 9, 8, 6, 5, 10].getD i 1)
    (fun i => [1, 2, 3, 4, 5, 3, 4, 2, 1].getD i 1) (fun i => [3, 4, 5, 6, 7, 5, 4, 3, 2].getD i 1)
    (fun i => [1, 2, 3, 4, 5, 1, 2, 3, 9].getD i 1) rfl (by decide) (by decide) (by decide) (by decide) 240 (by decide)
    (by
      intro x b hx
      match x, hx with
      | 0, hx | 1, hx | 2, hx | 3, hx | 4, hx | 5, hx | 6, hx | 7, hx | 8, hx => cases hx; rfl)
    (by
      intro x b hx
      match x, hx with
      | 0, hx | 1, hx | 2, hx | 3, hx | 4, hx | 5, hx | 6, hx | 7, hx | 8, hx => cases hx; exact ⟨rfl, rfl, rfl, rfl, rfl, rfl⟩)
    (by
      intro x
      match x with
      | 0 | 1 | 2 | 3 | 4 | 5 | 6 | 7 | 8 => norm_num
      | x + 9 => simp)
    (by
      intro x
      match x with
      | 0 | 1 | 2 | 3 | 4 | 5 | 6 | 7 | 8 => norm_num
      | x + 9 => simp)
    (by decide)

/-- Four minutes of which the third was empty and has been padded. -/
def paddedMinutes : Item (XF ℚ) where
  exchange := "x"
  interval := 60 * nsec
  symbol := ""
  code := ""
  candles := [candleOf 240 6 8 5 7 1, candleOf 300 7 9 6 8 2, Candle.zero 360, candleOf 420 10 12 9 11 4]

example : ∃ it1 it2 it, ConvertToNewInterval 0 (some paddedMinutes) ((2 : Nat) * (60 * nsec)) = .ok (.ok it1) ∧
    ConvertToNewInterval 0 (some it1) ((2 : Nat) * it1.interval) = .ok (.ok it2) ∧
    ConvertToNewInterval 0 (some paddedMinutes) ((2 * 2 : Nat) * (60 * nsec)) = .ok (.ok it) ∧
    it2.candles.length = it.candles.length := by
  obtain ⟨it1, it2, it, h1, h2, h3, h4, -⟩ := C152_padded 0 paddedMinutes 4 2 2
    (fun i => [6, 7, 0, 10].getD i 0) (fun i => [8, 9, 0, 12].getD i 0)
    (fun i => [5, 6, 0, 9].getD i 0) (fun i => [7, 8, 0, 11].getD i 0)
    (fun i => [1, 2, 0, 4].getD i 0) rfl (by decide) (by decide) (by decide) (by decide) 240 (by decide)
    (by
      intro x b hx
      match x, hx with
      | 0, hx | 1, hx | 2, hx | 3, hx => cases hx; rfl)
    (by
      intro x b hx
      match x, hx with
      | 0, hx | 1, hx | 2, hx | 3, hx => cases hx; exact ⟨rfl, rfl, rfl, rfl, rfl, rfl⟩)
    (by
      intro x
      match x with
      | 0 | 1 | 2 | 3 => norm_num
      | x + 4 => simp)
    (by decide)
  exact ⟨it1, it2, it, h1, h2, h3, h4⟩

/-- The lows of the candles of `e` after upscaling to the intervals `is` one after the other. -/
def lowsAfter (e : Item (XF ℚ)) : List Int → List (XF ℚ)
  | [] => e.candles.map (·.low)
  | i :: is =>
    match ConvertToNewInterval 0 (some e) i with
    | .ok (.ok e') => lowsAfter e' is
    | _ => []

/-- **C152 is false for padded series**: upscaled at once the low of the four minutes is 9, by way of two minutes it is 5. -/
theorem C152_padded_refuted :
    lowsAfter paddedMinutes [240 * nsec] = [.fin 9] ∧ lowsAfter paddedMinutes [120 * nsec, 240 * nsec] = [.fin 5] := by
  decide +kernel

end Verif.Props
