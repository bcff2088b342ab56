import Verif.Model.Meta
import Mathlib.Data.Finset.Card
import Mathlib.Data.Finset.Range
import Mathlib.Data.Finset.Filter

/-!
# Specification: hierarchies given by parent vectors, and right metadata
-/

namespace Lp.Spec

/-- Node `p` is the parent of node `h`. -/
def ParentIs (parents : List Int) (h p : Nat) : Prop := parents[h]? = some (p : Int)

instance (parents : List Int) (h p : Nat) : Decidable (ParentIs parents h p) :=
  inferInstanceAs (Decidable (parents[h]? = some (p : Int)))

/-- `Under parents a h`: node `h` is `a` or a descendant of `a`. -/
inductive Under (parents : List Int) (a : Nat) : Nat → Prop
  | self : Under parents a a
  | up {h p : Nat} : ParentIs parents h p → Under parents a p → Under parents a h

/-- The parent vector describes a tree with the given root whose leaves are the nodes `0..leaves-1`. -/
structure IsTree (leaves : Nat) (parents : List Int) (root : Nat) : Prop where
  rootLt : root < parents.length
  rootPar : parents[root]? = some (-1)
  other : ∀ h, h < parents.length → h ≠ root → ∃ p, p < parents.length ∧ ParentIs parents h p
  reach : ∀ h, h < parents.length → Under parents root h
  leavesLe : leaves ≤ parents.length
  leaf : ∀ h, h < parents.length → (h < leaves ↔ ¬ ∃ c, ParentIs parents c h)

/-- All leaves have the same depth: there is a level function that is 0 on leaves and grows by one from a node to
its parent. -/
def Balanced (leaves : Nat) (parents : List Int) : Prop :=
  ∃ level : Nat → Nat, (∀ h, h < leaves → level h = 0) ∧
    ∀ h p, ParentIs parents h p → level p = level h + 1

open Classical in
/-- The leaves below node `h`. -/
noncomputable def leavesUnder (leaves : Nat) (parents : List Int) (h : Nat) : Finset Nat :=
  (Finset.range leaves).filter (fun l => Under parents h l)

/-- The metadata object describes the tree correctly. -/
structure RightMeta (leaves : Nat) (parents : List Int) (md : HMeta) : Prop where
  tree : IsTree leaves parents md.root
  hsize : md.hsize = parents.length
  leaveSize : md.leaveSize = leaves
  parentsEq : md.parents = parents
  pathNodup : md.path.Nodup
  pathMem : ∀ h, h ∈ md.path ↔ h < parents.length
  pathLeaves : ∀ i, i < leaves → md.path[i]? = some i
  pathOrder : ∀ i j h p : Nat, md.path[i]? = some h → md.path[j]? = some p → ParentIs parents h p → i < j
  childrenLen : md.children.length = parents.length
  children : ∀ h, h < parents.length → ∃ ch, md.children[h]? = some ch ∧ ch.Nodup ∧
    ∀ c, c ∈ ch ↔ ParentIs parents c h
  size : ∀ h, h < parents.length → md.size h = some (leavesUnder leaves parents h).card

end Lp.Spec
