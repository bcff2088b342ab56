import Mathlib.Algebra.BigOperators.Intervals
import Mathlib.Data.Real.Basic
import Verif.Spec.Tree

/-!
# Specification: totals of data over parts
-/

namespace Lp.Spec

/-- Total of the values `x` over the interval `[s, e]`. -/
noncomputable def intervalTotal (x : Nat → ℝ) (s e : Nat) : ℝ := ∑ o ∈ Finset.Icc s e, x o

/-- Total of the values `x` of the leaves below node `h`. -/
noncomputable def nodeTotal (leaves : Nat) (parents : List Int) (x : Nat → ℝ) (h : Nat) : ℝ :=
  ∑ l ∈ leavesUnder leaves parents h, x l

end Lp.Spec
