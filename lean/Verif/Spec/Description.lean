import Mathlib.Analysis.SpecialFunctions.Log.Base
import Mathlib.Algebra.BigOperators.Group.Finset.Basic

/-!
# Specification: describing data by the parts of a partition, in bits

`V k x` is the value of series `k` at position `x`; each unit of a value is an individual, found at one of the positions.
* `microBits`: to tell for each individual at which position it is takes `log₂ (T / v)` bits, `T` the total of the series and `v` the value at the
  position (the code word of the position in an optimal code): in all `T` times the Shannon entropy of the shares `v / T`.
* `macroBits`: the same if one only tells in which part of the partition `L` it is.
* `Averages`: `W` spreads the total of each part evenly over the positions of the part.
* `divergenceBits`: what is lost by taking `W` for `V`: `∑ V log₂ (V / W)`, the total times the Kullback-Leibler divergence.
-/

namespace Lp.Spec
open scoped BigOperators
variable {A ι : Type}

/-- Bits to tell the positions. -/
noncomputable def microBits (m : Nat) (V : Nat → ι → ℝ) (U : Finset ι) : ℝ :=
  ∑ k ∈ Finset.range m, ∑ x ∈ U, V k x * Real.logb 2 ((∑ y ∈ U, V k y) / V k x)

/-- Bits to tell the parts. -/
noncomputable def macroBits (m : Nat) (V : Nat → ι → ℝ) (U : Finset ι) (pos : A → Finset ι) (L : List A) : ℝ :=
  ∑ k ∈ Finset.range m, (L.map (fun I => (∑ x ∈ pos I, V k x) * Real.logb 2 ((∑ y ∈ U, V k y) / ∑ x ∈ pos I, V k x))).sum

/-- `W` is the average of `V` on every part. -/
def Averages (m : Nat) (V W : Nat → ι → ℝ) (pos : A → Finset ι) (L : List A) : Prop :=
  ∀ k < m, ∀ I ∈ L, ∀ x ∈ pos I, W k x = (∑ y ∈ pos I, V k y) / (pos I).card

/-- Bits lost by taking `W` for `V`. -/
noncomputable def divergenceBits (m : Nat) (V W : Nat → ι → ℝ) (U : Finset ι) : ℝ :=
  ∑ k ∈ Finset.range m, ∑ x ∈ U, V k x * Real.logb 2 (V k x / W k x)

end Lp.Spec
