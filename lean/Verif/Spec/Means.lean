import Verif.Spec.Tree
import Mathlib.Algebra.BigOperators.Group.Finset.Basic
import Mathlib.Algebra.BigOperators.Group.Finset.Defs
import Mathlib.Order.Interval.Finset.Nat
import Mathlib.Data.Real.Basic

/-!
# Data in which every value is replaced by the mean of its part

`V k i` and `W k i` are the values of series `k` at slice or leaf `i`.
-/

namespace Lp.Spec
open scoped BigOperators

/-- In each of the closed intervals of slices, `W` is the mean of `V` over the interval. -/
def IntervalMeans (m : Nat) (V W : Nat → Nat → ℝ) (intervals : List (Int × Int)) : Prop :=
  ∀ a b : Nat, ((a : Int), (b : Int)) ∈ intervals → ∀ k < m, ∀ i : Nat, a ≤ i → i ≤ b →
    W k i = (∑ j ∈ Finset.Icc a b, V k j) / ((b : ℝ) - a + 1)

/-- At all leaves below each of the nodes, `W` is the mean of `V` over these leaves. -/
def NodeMeans (leaves : Nat) (parents : List Int) (m : Nat) (V W : Nat → Nat → ℝ) (nodes : List Nat) : Prop :=
  ∀ h ∈ nodes, ∀ k < m, ∀ l < leaves, Under parents h l →
    W k l = (∑ j ∈ leavesUnder leaves parents h, V k j) / (leavesUnder leaves parents h).card

end Lp.Spec
