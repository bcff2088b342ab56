import Verif.Model.Partitioner
import Verif.Spec.Tree
import Verif.Proofs.Vec
import Verif.Proofs.MRep

/-!
# Specification: the partitioners the search theorems are about

`IsPartitioner ops`: `ops` is the interface of an `OPartitioner` on a table of size at most 65535, of an
`HPartitioner` on a right hierarchy with an inner node and a table with one quality per node, or of a
`DPartitioner` on a right hierarchy and a table with one triangular matrix per node.
(`UTM.Rep`, `VRep` and `MRep` say that a table has the right shape and name its contents.)
-/

namespace Lp.Spec

/-- See the header. -/
inductive IsPartitioner {F K : Type} [LD K] [FloatP F K] : {P T : Type} → PartOps F K P T → Prop
  | ordered (q : UTM (Quality K)) (n : Nat) (f : Nat → Nat → Quality K) :
      q.Rep n f → IsPartitioner (oOps (F := F) q)
  | hierarchical (leaves : Nat) (parents : List Int) (md : HMeta) (q : List (Quality K)) (Q : Nat → Quality K) :
      RightMeta leaves parents md → leaves < parents.length → VRep q parents.length Q →
      IsPartitioner (hOps (F := F) q md)
  | spatiotemporal (leaves : Nat) (parents : List Int) (md : HMeta) (n : Nat) (q : List (UTM (Quality K)))
      (Q : Nat → Nat → Nat → Quality K) :
      RightMeta leaves parents md → 0 < n → n ≤ 65535 → MRep q parents.length n Q →
      IsPartitioner (dOps (F := F) q md)

end Lp.Spec
