import Verif.Spec.Tree

/-!
# Specification: the trees the metadata constructor reads correctly

Every node has a nearest leaf below it (smallest distance; among those the smallest number).  The condition says that
the nearest leaf of a child is strictly nearer than the nearest leaf of its parent, where two leaves at the same
distance are compared by number.
-/

namespace Lp.Spec

/-- Node `h` is `d` levels below node `a`. -/
inductive Below (parents : List Int) (a : Nat) : Nat → Nat → Prop
  | self : Below parents a a 0
  | up {h p d : Nat} : ParentIs parents h p → Below parents a p d → Below parents a h (d + 1)

/-- `(d, l)` comes before `(d', l')`: smaller distance, or the same distance and a smaller number. -/
def Nearer (d l d' l' : Nat) : Prop := d < d' ∨ (d = d' ∧ l < l')

/-- Leaf `l`, at distance `d`, is the nearest leaf below node `h`. -/
structure NearestLeaf (leaves : Nat) (parents : List Int) (h d l : Nat) : Prop where
  leaf : l < leaves
  below : Below parents h l d
  first : ∀ d' l', l' < leaves → Below parents h l' d' → ¬ Nearer d' l' d l

/-- The condition on the tree. -/
def NearestFirst (leaves : Nat) (parents : List Int) : Prop :=
  ∀ c p d l d' l', ParentIs parents c p → NearestLeaf leaves parents c d l → NearestLeaf leaves parents p d' l' →
    Nearer d l d' l'

end Lp.Spec
