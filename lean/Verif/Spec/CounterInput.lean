import Verif.Spec.Resources
import Verif.Spec.Counter

/-!
# Specification: counters with containers
-/

namespace Lp.Spec

/-- Right counters and right containers; the readings belong to containers, every container without children has a counter that was read
twice, and the root is not alone. -/
structure RightCounterInput {S Y K : Type} [LinearOrder S] [LinearOrder Y] [Field K] [LinearOrder K] (trace : List (TCounter S Y K))
    (first total : K) (resources : List (Container S)) (root : S) : Prop where
  rightCounters : RightCounters trace first total
  rightResources : RightResources resources root
  known : ∀ r ∈ trace, ∃ c ∈ resources, c.resource = r.resource
  data : ∀ c ∈ resources, (∀ c' ∈ resources, c'.parent ≠ c.resource) → ∃ y, 2 ≤ (readings trace c.resource y).length
  several : ∃ c ∈ resources, c.resource ≠ root

end Lp.Spec
