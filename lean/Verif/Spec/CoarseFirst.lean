import Verif.Spec.Cover

/-!
# Specification: space–time partitions that never become coarser as time goes on

The spatiotemporal algorithm considers exactly the partitions of this kind (`Verif/Proofs/CoarseFirst.lean`).
-/

namespace Lp.Spec

/-- Whenever a rectangle `r` of some node and a rectangle `s` of a proper descendant of that node both occur in `L`, the
coarse one ends before the fine one begins. -/
def CoarseFirst (parents : List Int) (L : List Rect) : Prop :=
  ∀ r ∈ L, ∀ s ∈ L, r.node ≠ s.node → Under parents r.node s.node → r.last < s.first

end Lp.Spec
