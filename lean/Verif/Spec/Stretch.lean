import Verif.Spec.Cover
import Mathlib.Data.Real.Basic

/-!
# Specification: the same data at a finer resolution of time

Every slice is cut into `c` slices and every value into `c` equal values.
-/

namespace Lp.Spec

/-- Ordered data: slice `x` of the finer data is one of the `c` pieces of slice `x / c`. -/
noncomputable def finer (c : Nat) (V : Nat → Nat → ℝ) : Nat → Nat → ℝ := fun k x => V k (x / c) / c

/-- The same for spatiotemporal data. -/
noncomputable def finerD (c : Nat) (V : Nat → Nat × Nat → ℝ) : Nat → Nat × Nat → ℝ := fun k x => V k (x.1, x.2 / c) / c

/-- The pieces of the slices `a` to `b`. -/
def slicePieces (c : Nat) (I : Nat × Nat) : Nat × Nat := (c * I.1, c * I.2 + (c - 1))

/-- The pieces of the slices of a rectangle. -/
def slicePiecesD (c : Nat) (r : Rect) : Rect := ⟨r.node, c * r.first, c * r.last + (c - 1)⟩

end Lp.Spec
