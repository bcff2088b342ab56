import Verif.Spec.Tree
import Mathlib.Logic.ExistsUnique

/-!
# Specification: partitions of the leaves of a hierarchy, and of leaves × slices
-/

namespace Lp.Spec

/-- Exactly one position of the list holds an element with property `P`. -/
def ExactlyOne {A : Type} (P : A → Prop) (L : List A) : Prop := ∃! k : Nat, ∃ x, L[k]? = some x ∧ P x

/-- The list `L` of nodes is a partition of the leaves: every leaf is below exactly one node of `L`. -/
def LeafCover (leaves : Nat) (parents : List Int) (L : List Nat) : Prop :=
  (∀ x ∈ L, x < parents.length) ∧ ∀ l, l < leaves → ExactlyOne (fun x => Under parents x l) L

/-- `L` is a refinement of `M`: every node of `L` is below a node of `M`. -/
def Refines (parents : List Int) (L M : List Nat) : Prop := ∀ x ∈ L, ∃ y ∈ M, Under parents y x

/-- A rectangle: a node and a closed interval of slices. -/
structure Rect where
  node : Nat
  first : Nat
  last : Nat
  deriving DecidableEq, Repr

/-- The rectangle contains the cell (leaf `l`, slice `t`). -/
def Rect.Has (parents : List Int) (r : Rect) (l t : Nat) : Prop :=
  Under parents r.node l ∧ r.first ≤ t ∧ t ≤ r.last

/-- The list `L` of rectangles is a partition of leaves × slices: every cell is in exactly one of them. -/
def CellCover (leaves : Nat) (parents : List Int) (n : Nat) (L : List Rect) : Prop :=
  (∀ r ∈ L, r.node < parents.length ∧ r.first ≤ r.last ∧ r.last < n) ∧
    ∀ l t, l < leaves → t < n → ExactlyOne (fun r : Rect => r.Has parents l t) L

end Lp.Spec
