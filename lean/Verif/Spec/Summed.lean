import Mathlib.Data.Real.Basic
import Mathlib.Algebra.BigOperators.Group.Finset.Basic

/-!
# Specification: series added up
-/

namespace Lp.Spec
open scoped BigOperators
variable {ι : Type}

/-- The `m'` series `W` are the `m` series `V` added up in groups: series `k` goes into the sum `group k`. -/
structure Summed (dom : ι → Prop) (m : Nat) (V : Nat → ι → ℝ) (m' : Nat) (W : Nat → ι → ℝ) (group : Nat → Nat) : Prop where
  goes : ∀ k, k < m → group k < m'
  total : ∀ j x, j < m' → dom x → W j x = ∑ k ∈ (Finset.range m).filter (fun k => group k = j), V k x

/-- Two series are proportional on the positions `s`. -/
def Proportional (s : Finset ι) (v w : ι → ℝ) : Prop := ∀ x ∈ s, ∀ y ∈ s, v x * w y = v y * w x

/-- On the positions `s` the series of every group are proportional to each other. -/
def AllProportional (s : Finset ι) (m : Nat) (V : Nat → ι → ℝ) (group : Nat → Nat) : Prop :=
  ∀ j k, j < m → k < m → group j = group k → Proportional s (V j) (V k)

end Lp.Spec
