import Verif.Model.RMicro
import Verif.Spec.Tree
import Verif.Spec.Slicing

/-!
# Specification: the containers of a trace form a tree
-/

namespace Lp.Spec
variable {S : Type}

/-- Container `s` is `a` or a descendant of it. -/
inductive Descends (resources : List (Container S)) (root a : S) : S → Prop
  | self : Descends resources root a a
  | step {c : Container S} : c ∈ resources → c.resource ≠ root → Descends resources root a c.parent →
      Descends resources root a c.resource

/-- The containers have distinct names, the first one is the root, which is its own parent (as in a pjdump file), the parent of each
is a container, and all descend from the root. -/
structure RightResources (resources : List (Container S)) (root : S) : Prop where
  head : ∃ rest, resources = ⟨root, root⟩ :: rest
  nodup : (resources.map (fun c => c.resource)).Nodup
  closed : ∀ c ∈ resources, ∃ c' ∈ resources, c'.resource = c.parent
  reach : ∀ c ∈ resources, Descends resources root root c.resource

/-- Every container without children has the same depth: there is a level function that is 0 on those and grows by one from a
container to its parent. -/
def SameDepth (resources : List (Container S)) (root : S) : Prop :=
  ∃ level : S → Nat, (∀ c ∈ resources, (∀ c' ∈ resources, c'.parent ≠ c.resource) → level c.resource = 0) ∧
    ∀ c ∈ resources, c.resource ≠ root → level c.parent = level c.resource + 1

/-- The vector gives the (one-based) place of the parent of each name, and 0 for the root. -/
structure RightHierarchy (resources : List (Container S)) (root : S) (names : List S) (h : List Int) : Prop where
  length : h.length = names.length
  rootZero : ∀ i : Nat, names[i]? = some root → h[i]? = some 0
  parent : ∀ c ∈ resources, c.resource ≠ root → ∀ i : Nat, names[i]? = some c.resource →
    ∃ j : Nat, names[j]? = some c.parent ∧ h[i]? = some ((j : Int) + 1)

/-- A trace with right durations and right containers; the states belong to containers, every container without children has a state
that overlaps a slice, and the root is not alone. -/
structure RightInput {Y K : Type} [DecidableEq S] [DecidableEq Y] [Field K] [LinearOrder K] (trace : List (TState S Y K))
    (first total : K) (n : Nat) (resources : List (Container S)) (root : S) : Prop where
  rightTrace : RightTrace trace first total
  rightResources : RightResources resources root
  known : ∀ r ∈ trace, ∃ c ∈ resources, c.resource = r.resource
  data : ∀ c ∈ resources, (∀ c' ∈ resources, c'.parent ≠ c.resource) →
    ∃ r ∈ trace, r.resource = c.resource ∧ ∃ k, Touches first total n r k
  several : ∃ c ∈ resources, c.resource ≠ root

end Lp.Spec
