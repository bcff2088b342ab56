import Verif.Model.Partitioner

/-!
# Histories of calls on one partitioner object
(the public functions of `headers/partitioner.h:17-22`, `headers/opartitioner.h:23-28`, `headers/hpartitioner.h`,
`headers/dpartitioner.h`)
-/

namespace Lp
variable {F K P T : Type}

/-- A call on a partitioner: `computeBestPartitions(t,lo,hi)`, `computeBestPartition(p)`, `getP(s)`,
`computeAUC()`, or one of the getters (which copy a member). -/
inductive PCall (F : Type)
  | search (t lo hi : F)
  | best (p : F)
  | getP (strategy : Int)
  | auc
  | getter
  deriving Repr

variable [FloatP F K] [LD K]

/-- Effect of a call on the state of the object (the returned value is discarded).  `computeBestPartition` works on
its own local variables (`sources/opartitioner.cpp:44-66`); `getP` and `computeAUC` use `qualityList[p]`, which for
a missing key inserts a null pointer and then dereferences it (`mapDeref`). -/
def PCall.run (ops : PartOps F K P T) (strict : Bool) (fuel : Nat) (randMax : K) (rnd : K → K) :
    PCall F → PState F K P T → Res (PState F K P T)
  | .search t lo hi, st => computeBestPartitions ops strict fuel t lo hi st
  | .best p, st => do let _ ← ops.best p; return st
  | .getP s, st => do let _ ← Lp.getP randMax s st; return st
  | .auc, st => do let _ ← computeAUC rnd st; return st
  | .getter, st => return st

/-- A sequence of calls on one object. -/
def runHistory (ops : PartOps F K P T) (strict : Bool) (fuel : Nat) (randMax : K) (rnd : K → K)
    (calls : List (PCall F)) (st : PState F K P T) : Res (PState F K P T) :=
  forEach (PCall.run ops strict fuel randMax rnd) calls st

end Lp
