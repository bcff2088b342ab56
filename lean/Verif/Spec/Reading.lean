import Verif.Model.Partitioner
import Verif.Spec.Binary

/-!
# Specification: parameters next to an arbitrary arithmetic on the qualities

The search theorems with `FloatLaws F K u` take the parameters as numbers of the same field `K` in which the qualities are
computed, which excludes machine arithmetic on the qualities.  `Reading F val` is the parameter type `F` of an arbitrary
arithmetic, each parameter `p` read as the rational number `val p`; the operations on parameters are those of `F`.
`FloatLaws (Reading F val) ℚ u` hence speaks of the `float` operations on the parameters only: nothing is assumed of `K`.
`With F c` is the parameter type `F` (binary32, or exact rational numbers) next to any arithmetic `K` into which parameters are
converted by any function `c`.
-/

namespace Lp.Spec

/-- Parameters read as rational numbers. -/
def Reading (F : Type) (_ : F → ℚ) : Type := F

instance readingP (F : Type) (val : F → ℚ) {K : Type} [inst : FloatP F K] : FloatP (Reading F val) ℚ where
  toK a := val a
  zero := inst.zero
  oneSub p := inst.oneSub p
  sub a b := inst.sub a b
  add a b := inst.add a b
  half a := inst.half a
  lt a b := inst.lt a b

/-- The parameters `F`, converted to the arithmetic `K` of the qualities by `c`. -/
def With (F : Type) {K : Type} (_ : ℚ → K) : Type := F

instance withP (F : Type) [inst : FloatP F ℚ] {K : Type} (c : ℚ → K) : FloatP (With F c) K where
  toK a := c (inst.toK a)
  zero := inst.zero
  oneSub p := inst.oneSub p
  sub a b := inst.sub a b
  add a b := inst.add a b
  half a := inst.half a
  lt a b := inst.lt a b

/-- The number that a parameter is. -/
def With.val {F : Type} [inst : FloatP F ℚ] {K : Type} {c : ℚ → K} (p : With F c) : ℚ := inst.toK p

end Lp.Spec
