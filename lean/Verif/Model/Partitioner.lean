import Verif.Model.DPartition

/-!
# `Partitioner` and the search for the significant parameters
(sources/partitioner.cpp; `computeBestPartitions`/`addBestQualities` of sources/{o,h,d}partitioner.cpp)

The three partitioners contain the same text for `computeBestPartitions` and `addBestQualities`; it is modelled
once, over a record of the operations that differ.
-/

namespace Lp
variable {F K P T : Type}

/-- What distinguishes the three partitioners in the search: `computeBestPartition`, `operator==` on partitions,
`getParameter`, `getQuality`, and the rows of `partitionsTuples` for one partition. -/
structure PartOps (F K P T : Type) where
  best : F → Res P
  same : P → P → Bool
  param : P → F
  quality : P → Quality K
  rows : F → P → List T

/-- State of a partitioner: `headers/partitioner.h:26-27`, `headers/opartitioner.h:32-33`. `map<float,·>` is a
list sorted by key. -/
structure PState (F K P T : Type) where
  pList : List F
  partitions : List (F × P)
  tuples : List T
  qualityList : List (F × Quality K)

/-- A new partitioner. -/
def PState.empty : PState F K P T := ⟨[], [], [], []⟩

section
variable [FloatP F K]

/-- `m[k] = v` for `map<float, V>`. -/
def mapInsert {V : Type} (k : F) (v : V) : List (F × V) → List (F × V)
  | [] => [(k, v)]
  | (k', v') :: m =>
    if FloatP.lt k k' then (k, v) :: (k', v') :: m
    else if FloatP.lt k' k then (k', v') :: mapInsert k v m
    else (k', v) :: m

/-- Look-up of key `k` in `map<float, V>`. -/
def mapFind {V : Type} (k : F) : List (F × V) → Option V
  | [] => none
  | (k', v') :: m => if !(FloatP.lt k k') && !(FloatP.lt k' k) then some v' else mapFind k m

/-- `m.erase(m.find(k))` for a present key. -/
def mapErase {V : Type} (k : F) : List (F × V) → List (F × V)
  | [] => []
  | (k', v') :: m => if !(FloatP.lt k k') && !(FloatP.lt k' k) then m else (k', v') :: mapErase k m

/-- `*(m[k])` for `map<float, shared_ptr<V>>`: a missing key inserts a null pointer that is then dereferenced. -/
def mapDeref {V : Type} (k : F) (m : List (F × V)) : Res V :=
  match mapFind k m with
  | some v => .ok v
  | none => .error .nullDeref

/-- The two containers filled during the search. -/
structure Acc (F P : Type) where
  pList : List F
  partitions : List (F × P)

/-- `addBestQualities(threshold, min, max)`: `sources/opartitioner.cpp:68-79`, `sources/hpartitioner.cpp:89-100`,
`sources/dpartitioner.cpp:104-115`, with a bound on the recursion depth. -/
def addBest (ops : PartOps F K P T) (t : F) : Nat → P → P → Acc F P → Res (Acc F P)
  | 0, _, _, _ => .error .outOfFuel
  | fuel + 1, a, b, s =>
    if !(ops.same a b) && FloatP.lt t (FloatP.sub (ops.param b) (ops.param a)) then do
      let m := FloatP.add (ops.param a) (FloatP.half (FloatP.sub (ops.param b) (ops.param a)))
      let mid ← ops.best m
      let s ← addBest ops t fuel a mid s
      let s : Acc F P := ⟨s.pList ++ [m], mapInsert m mid s.partitions⟩
      addBest ops t fuel mid b s
    else return s

/-- The duplicate-removing loop: `sources/opartitioner.cpp:28-34`, `sources/hpartitioner.cpp:29-35`,
`sources/dpartitioner.cpp:28-34`, from list position `idx` downwards.  With `strict = true` decrementing the
iterator that `erase` has invalidated is a fault, as in the C++ standard; with `strict = false` the iterator is
the address of a position, as in libstdc++. -/
def dedup (ops : PartOps F K P T) (strict : Bool) : Nat → Acc F P → Res (Acc F P)
  | 0, s => .ok s
  | idx + 1, s => do
    let x ← vget s.pList (idx + 1)
    let y ← vget s.pList idx
    let a ← mapDeref x s.partitions
    let b ← mapDeref y s.partitions
    if ops.same a b then
      if strict then .error .badIterator
      else dedup ops strict idx ⟨s.pList.eraseIdx (idx + 1), mapErase x s.partitions⟩
    else dedup ops strict idx s

/-- `computeBestPartitions(threshold, min, max)`: `sources/opartitioner.cpp:13-42`,
`sources/hpartitioner.cpp:14-43`, `sources/dpartitioner.cpp:13-42`. The old state is overwritten. -/
def computeBestPartitions (ops : PartOps F K P T) (strict : Bool) (fuel : Nat) (t lo hi : F)
    (st : PState F K P T) : Res (PState F K P T) := do
  -- lines 15-18: clear
  let st := { st with pList := [], partitions := [], tuples := [], qualityList := [] }
  let pmin ← ops.best lo
  let acc : Acc F P := ⟨st.pList ++ [lo], mapInsert lo pmin st.partitions⟩
  let pmax ← ops.best hi
  let acc ← addBest ops t fuel pmin pmax acc
  let acc : Acc F P := ⟨acc.pList ++ [hi], mapInsert hi pmax acc.partitions⟩
  let acc ← dedup ops strict (acc.pList.length - 1) acc
  return {
    pList := acc.pList
    partitions := acc.partitions
    tuples := acc.partitions.foldl (fun l e => l ++ ops.rows e.1 e.2) st.tuples
    qualityList := acc.partitions.foldl (fun m e => mapInsert e.1 (ops.quality e.2) m) st.qualityList }

variable [LD K]

/-- `computePOpt`: `sources/partitioner.cpp:40-54`; `randMax` is `RAND_MAX`. -/
def computePOpt (randMax : K) (st : PState F K P T) : Res F := do
  let r ← forEach (fun p (acc : K × Option F) => do
    let q ← mapDeref p st.qualityList
    let score := (q.gain - 1) * (q.gain - 1) + q.loss * q.loss
    if decide (score < acc.1) || score == acc.1 then return (score, some p) else return acc)
    st.pList (randMax, none)
  match r.2 with
  | some p => return p
  | none => .error .uninit

/-- `getP(strategy)`: `sources/partitioner.cpp:13-24`, with `P_MIN`=0, `P_MAX`=1, `P_OPT`=2
(`headers/lpglobal.h:10-12`). -/
def getP (randMax : K) (strategy : Int) (st : PState F K P T) : Res F :=
  if strategy = 0 then return FloatP.zero
  else if strategy = 1 then
    (if st.pList.length = 0 then .error .outOfBounds else vget st.pList (st.pList.length - 1))
  else if strategy = 2 then computePOpt randMax st
  else return FloatP.zero

/-- `computeAUC`: `sources/partitioner.cpp:26-33`.  The accumulator and the result are `float`s: `rnd` is the
rounding of a number to `float`.  With an empty list `pList.size()-1` wraps and `pList[1]` is read. -/
def computeAUC (rnd : K → K) (st : PState F K P T) : Res K :=
  if st.pList.length = 0 then .error .outOfBounds else do
    let auc ← forUp 0 (st.pList.length - 1) (fun i (auc : K) => do
      let a ← vget st.pList i
      let b ← vget st.pList (i + 1)
      let qa ← mapDeref a st.qualityList
      let qb ← mapDeref b st.qualityList
      return rnd (auc + (qb.gain - qa.gain) * (qb.loss + qa.loss) / (1 + 1))) 0
    return rnd (1 - auc)

/-! ## The three instances -/

/-- Rows of `OPartitioner::partitionsTuples`: `sources/opartitioner.cpp:36-39`. -/
def oOps (q : UTM (Quality K)) : PartOps F K (OPartition F K) (F × Int × Int × K × K) where
  best := oBestPartition q
  same := OPartition.eqOp
  param := OPartition.parameter
  quality := OPartition.quality
  rows p part := part.parts.map (fun x => (p, x.start, x.end, x.quality.gain, x.quality.loss))

/-- Rows of `HPartitioner::partitionsTuples`: `sources/hpartitioner.cpp:37-40`. -/
def hOps (q : List (Quality K)) (md : HMeta) : PartOps F K (HPartition F K) (F × Nat × Nat × K × K) where
  best := hBestPartition q md
  same := HPartition.eqOp
  param := HPartition.parameter
  quality := HPartition.quality
  rows p part := part.parts.map (fun x => (p, x.h, x.size, x.quality.gain, x.quality.loss))

/-- Rows of `DPartitioner::partitionsTuples`: `sources/dpartitioner.cpp:36-39`. -/
def dOps (q : List (UTM (Quality K))) (md : HMeta) :
    PartOps F K (DPartition F K) (F × Nat × Int × Nat × Nat × K × K) where
  best := dBestPartition q md
  same := DPartition.eqOp
  param := DPartition.parameter
  quality := DPartition.quality
  rows p part := part.parts.map
    (fun x => (p, x.h, x.getSize, x.start, x.end, x.quality.gain, x.quality.loss))

end
end Lp
