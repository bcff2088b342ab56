import Verif.Spec.Tree

/-!
# Specification: parent vectors that name one root and leave no inner node without a leaf
-/

namespace Lp.Spec

/-- Exactly one entry of the parent vector is `-1` and all the others are node numbers; every
inner node has some leaf below it. -/
structure OneRoot (leaves : Nat) (parents : List Int) (root : Nat) : Prop where
  leavesLe : leaves ≤ parents.length
  rootLt : root < parents.length
  rootPar : parents[root]? = some (-1)
  other : ∀ h, h < parents.length → h ≠ root → ∃ p, p < parents.length ∧ ParentIs parents h p
  above : ∀ h, h < parents.length → leaves ≤ h → ∃ l, l < leaves ∧ Under parents h l

end Lp.Spec
