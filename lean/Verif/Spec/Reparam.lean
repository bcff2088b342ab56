import Mathlib.Algebra.Order.Field.Basic

/-!
# Specification: the parameter that gives qualities the weights normalised qualities have

`p * (gain / G) - (1-p) * (loss / L)` and `r * gain - (1-r) * loss` with `r = reparam G L p` order partitions in the same way.
-/

namespace Lp.Spec

/-- `r / (1-r) = (p / G) / ((1-p) / L)`. -/
def reparam {K : Type} [Field K] (G L p : K) : K := p * L / (p * L + (1 - p) * G)

end Lp.Spec
