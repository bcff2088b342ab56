import Mathlib.Data.Real.Basic
import Mathlib.Data.Finset.Prod
import Verif.Model.RBinding

/-!
# Specification: arrays that hold the same series

Two ways of writing the same observations into an array: in another unit, in another order, each of them several times,
with series that are always zero in between.
-/

namespace Lp.Spec

/-- The series `V' i j` (`i < a'`, `j < b'`) are the series `V i j` (`i < a`, `j < b`) in the unit `1 / c`, in any order, each of them
`r` times, and series that are zero everywhere.  `τ` says from which series a new one comes. -/
structure SameObservations {ι : Type} (dom : ι → Prop) (c : ℝ) (r : Nat) (a b : Nat) (V : Nat → Nat → ι → ℝ) (a' b' : Nat)
    (V' : Nat → Nat → ι → ℝ) (τ : Nat × Nat → Option (Nat × Nat)) : Prop where
  from' : ∀ i' j', i' < a' → j' < b' → ∀ i j, τ (i', j') = some (i, j) →
    i < a ∧ j < b ∧ ∀ x, dom x → V' i' j' x = c * V i j x
  zero : ∀ i' j', i' < a' → j' < b' → τ (i', j') = none → ∀ x, dom x → V' i' j' x = 0
  times : ∀ i j, i < a → j < b →
    ((Finset.range a' ×ˢ Finset.range b').filter (fun x => τ x = some (i, j))).card = r

/-- Everything but the rows of the partitions: the table of parameters and qualities, the optimal parameter and the area. -/
def summary {F K R : Type} (r : RResult F K R) : List (QRow F K) × F × K := (r.qualities, r.pOpt, r.auc)

end Lp.Spec
