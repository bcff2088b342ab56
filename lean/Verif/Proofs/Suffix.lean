import Verif.Spec.Cover

/-!
# The space–time partitions that the spatiotemporal algorithm considers

`SufPart parents n h i L`: `L` partitions (leaves below `h`) × (slices `i..n-1`) by: one rectangle; or a first
rectangle `(h, i..c)` followed by such a partition from `c+1`; or such partitions of all the children of `h`, all
starting at `i`.  (A node cannot be taken again after its children have been used.)
-/

namespace Lp
open Spec

/-- See the header. -/
inductive SufPart (parents : List Int) (n : Nat) : Nat → Nat → List Rect → Prop
  | whole {h i : Nat} : SufPart parents n h i [⟨h, i, n - 1⟩]
  | cut {h i c : Nat} {L : List Rect} : i ≤ c → c < n - 1 → SufPart parents n h (c + 1) L →
      SufPart parents n h i (⟨h, i, c⟩ :: L)
  | split {h i : Nat} (children : List Nat) (parts : Nat → List Rect) :
      (∃ c, ParentIs parents c h) → children.Nodup → (∀ c, c ∈ children ↔ ParentIs parents c h) →
      (∀ c, ParentIs parents c h → SufPart parents n c i (parts c)) →
      SufPart parents n h i (children.flatMap parts)

end Lp
