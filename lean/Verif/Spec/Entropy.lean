import Mathlib.Analysis.SpecialFunctions.Log.Base
import Mathlib.Algebra.BigOperators.Group.Finset.Basic

/-!
# Specification: entropy reduction and divergence of a set of microscopic values

For a finite set `s` of microscopic positions with values `v x`, sum `S` and number `n`:
gain `S log₂ S - ∑ v log₂ v` and loss `S log₂ n - (S log₂ S - ∑ v log₂ v)`; several series add up.
-/

namespace Lp.Spec
open scoped BigOperators
variable {ι : Type}

/-- `x log₂ x`. -/
noncomputable def xlog2 (x : ℝ) : ℝ := x * Real.logb 2 x

/-- Gain (entropy reduction) of aggregating the positions `s`. -/
noncomputable def gainOver (s : Finset ι) (v : ι → ℝ) : ℝ := xlog2 (∑ x ∈ s, v x) - ∑ x ∈ s, xlog2 (v x)

/-- Loss (divergence) of aggregating the positions `s`. -/
noncomputable def lossOver (s : Finset ι) (v : ι → ℝ) : ℝ :=
  (∑ x ∈ s, v x) * Real.logb 2 s.card - gainOver s v

/-- Gain over `m` series. -/
noncomputable def gainSeries (m : Nat) (s : Finset ι) (v : Nat → ι → ℝ) : ℝ :=
  ∑ k ∈ Finset.range m, gainOver s (v k)

/-- Loss over `m` series. -/
noncomputable def lossSeries (m : Nat) (s : Finset ι) (v : Nat → ι → ℝ) : ℝ :=
  ∑ k ∈ Finset.range m, lossOver s (v k)

/-! For data that may be negative the code leaves out the values that are not positive, and the whole gain if the sum
is not positive. -/

/-- `x log₂ x` for positive `x`, 0 otherwise. -/
noncomputable def glog2 (x : ℝ) : ℝ := if 0 < x then xlog2 x else 0

/-- Gain for data of any sign. -/
noncomputable def gainAny (s : Finset ι) (v : ι → ℝ) : ℝ :=
  if 0 < ∑ x ∈ s, v x then xlog2 (∑ x ∈ s, v x) - ∑ x ∈ s, glog2 (v x) else 0

/-- Loss for data of any sign. -/
noncomputable def lossAny (s : Finset ι) (v : ι → ℝ) : ℝ := (∑ x ∈ s, v x) * Real.logb 2 s.card - gainAny s v

end Lp.Spec
