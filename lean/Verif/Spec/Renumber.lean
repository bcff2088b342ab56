import Verif.Spec.Tree

/-!
# Specification: two numberings of the same hierarchy
-/

namespace Lp.Spec

/-- `σ` renumbers the hierarchy `parents` into `parents'`: it maps the nodes one-to-one, and a node's parent to the parent of
its image. -/
structure Renumbering (parents parents' : List Int) (σ : Nat → Nat) : Prop where
  length : parents'.length = parents.length
  lt : ∀ h, h < parents.length → σ h < parents.length
  inj : ∀ a b, a < parents.length → b < parents.length → σ a = σ b → a = b
  parent : ∀ h p, h < parents.length → p < parents.length → (ParentIs parents' (σ h) (σ p) ↔ ParentIs parents h p)

end Lp.Spec
