import Verif.Spec.Stretch
import Verif.Spec.Tree

/-!
# Specification: the same data at a finer resolution of space

Every leaf of the hierarchy becomes a group of `c` new leaves, which share its values equally.  The new leaves have the numbers
`0, …, leaves*c - 1`, leaf `x` being a piece of the old leaf `x / c`; the old node `h` has the number `leaves*c + h`.
-/

namespace Lp.Spec

/-- The parent vector of the finer hierarchy. -/
def finerTree (c leaves : Nat) (parents : List Int) : List Int :=
  (List.range (leaves * c)).map (fun x => ((leaves * c + x / c : Nat) : Int)) ++
    parents.map (fun p => if p < 0 then p else p + ((leaves * c : Nat) : Int))

/-- Spatiotemporal data: every value divided among the pieces of its leaf.  (For hierarchical data this is `finer`.) -/
noncomputable def finerS (c : Nat) (V : Nat → Nat × Nat → ℝ) : Nat → Nat × Nat → ℝ := fun k x => V k (x.1 / c, x.2) / c

end Lp.Spec
