import Verif.Go.Basic

/-!
# More loop rules
-/

namespace Verif

/-- An invariant, indexed by the loop counter, of every step that does not panic holds after a loop that does
not panic. -/
theorem goFor_ok_inv' {σ : Type _} {lo hi : Nat} {body : Int → σ → Go σ} (P : Nat → σ → Prop)
    (h : ∀ (k : Nat) s s', lo ≤ k → k < hi → P k s → body (k : Int) s = .ok s' → P (k + 1) s') {s r : σ}
    (hlh : lo ≤ hi) (h0 : P lo s) (hr : goFor (lo : Int) (hi : Int) s body = .ok r) : P hi r := by
  unfold goFor at hr
  have e : ((hi : Int) - (lo : Int)).toNat = hi - lo := by omega
  rw [e] at hr
  obtain ⟨n, hn⟩ : ∃ n, n = hi - lo := ⟨_, rfl⟩
  rw [← hn] at hr
  clear e
  induction n generalizing lo s with
  | zero =>
    cases hr
    have : lo = hi := by omega
    subst this; exact h0
  | succ n ih =>
    rw [goForFrom_succ] at hr
    cases hb : body lo s with
    | error e => rw [hb] at hr; cases hr
    | ok s' =>
      rw [hb] at hr
      refine ih (lo := lo + 1) (fun k s s' h1 h2 => h k s s' (by omega) h2) (by omega)
        (h lo s s' (Nat.le_refl _) (by omega) h0 hb) ?_ (by omega)
      simpa using hr

/-- The same for a loop from 0. -/
theorem goFor_ok_inv₀ {σ : Type _} {n : Nat} {body : Int → σ → Go σ} (P : Nat → σ → Prop)
    (h : ∀ (k : Nat) s s', k < n → P k s → body (k : Int) s = .ok s' → P (k + 1) s') {s r : σ}
    (h0 : P 0 s) (hr : goFor 0 (n : Int) s body = .ok r) : P n r :=
  goFor_ok_inv' (lo := 0) P (fun k s s' _ hk => h k s s' hk) (Nat.zero_le n) h0 hr

end Verif
