import Verif.Spec.Entropy

/-!
# Specification: data with one more, uniform series; how coarse a partition is
-/

namespace Lp.Spec

/-- The `m` series `V` and one more, series `m`, that has the value `c` everywhere. -/
noncomputable def withUniform {ι : Type} (m : Nat) (V : Nat → ι → ℝ) (c : ℝ) : Nat → ι → ℝ := fun k x => if k = m then c else V k x

/-- `Σ N log₂ N` over parts of the sizes `N`: 0 if all parts have one cell; it grows when parts are merged. -/
noncomputable def coarseness (sizes : List Nat) : ℝ := (sizes.map (fun N : Nat => xlog2 (N : ℝ))).sum

end Lp.Spec
