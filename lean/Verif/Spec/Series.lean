import Mathlib.Data.Real.Basic

/-!
# Specification: the same data up to the order of the series and all-zero series
-/

namespace Lp.Spec

/-- The `m'` series `V'` are the `m` series `V` in some order (series `k` has become series `σ k`) plus series whose values
at all positions in `dom` are 0. -/
def SameSeries {ι : Type} (dom : ι → Prop) (m : Nat) (V : Nat → ι → ℝ) (m' : Nat) (V' : Nat → ι → ℝ) : Prop :=
  ∃ σ : Nat → Nat,
    (∀ k, k < m → σ k < m') ∧
    (∀ k l, k < m → l < m → σ k = σ l → k = l) ∧
    (∀ k x, k < m → dom x → V' (σ k) x = V k x) ∧
    (∀ k x, k < m' → (∀ l, l < m → σ l ≠ k) → dom x → V' k x = 0)

end Lp.Spec
