import Verif.Model.OPartition
import Verif.Model.HPartition
import Verif.Model.DPartition

/-!
# `operator!=` of parts and partitions
-/

namespace Lp
variable {F K : Type}

/-- `operator!=(OPart, OPart)`: `sources/opartition.cpp:77-80`. -/
def OPart.neOp (a b : OPart K) : Bool := !(OPart.eqOp a b)
/-- `operator!=(HPart, HPart)`: `sources/hpartition.cpp:29-32`. -/
def HPart.neOp (a b : HPart K) : Bool := !(HPart.eqOp a b)
/-- `operator!=(DPart, DPart)`: `sources/dpartition.cpp:13-16`. -/
def DPart.neOp (a b : DPart K) : Bool := !(DPart.eqOp a b)
/-- `operator!=(OPartition, OPartition)`: `sources/opartition.cpp:108-111`. -/
def OPartition.neOp (a b : OPartition F K) : Bool := !(OPartition.eqOp a b)
/-- `operator!=(HPartition, HPartition)`: `sources/hpartition.cpp:60-63`. -/
def HPartition.neOp (a b : HPartition F K) : Bool := !(HPartition.eqOp a b)
/-- `operator!=(DPartition, DPartition)`: `sources/dpartition.cpp:143-146`. -/
def DPartition.neOp (a b : DPartition F K) : Bool := !(DPartition.eqOp a b)

end Lp
