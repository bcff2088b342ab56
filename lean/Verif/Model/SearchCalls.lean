import Verif.Model.Partitioner

/-!
# The search again, recording its calls of `computeBestPartition`

The same source lines as `addBest` and `computeBestPartitions` (`Model/Partitioner.lean`), with a list of the parameters for
which `computeBestPartition` has been called, in the order of the calls.  `Props/C63.lean` (`recorded`) proves that the results are those of
`computeBestPartitions`.
-/

namespace Lp
variable {F K P T : Type} [FloatP F K]

/-- `addBestQualities(threshold, min, max)`: `sources/opartitioner.cpp:68-79`, `sources/hpartitioner.cpp:89-100`,
`sources/dpartitioner.cpp:104-115`, with the list of calls. -/
def addBestC (ops : PartOps F K P T) (t : F) : Nat → P → P → Acc F P × List F → Res (Acc F P × List F)
  | 0, _, _, _ => .error .outOfFuel
  | fuel + 1, a, b, s =>
    if !(ops.same a b) && FloatP.lt t (FloatP.sub (ops.param b) (ops.param a)) then do
      let m := FloatP.add (ops.param a) (FloatP.half (FloatP.sub (ops.param b) (ops.param a)))
      let mid ← ops.best m
      let s ← addBestC ops t fuel a mid (s.1, s.2 ++ [m])
      addBestC ops t fuel mid b (⟨s.1.pList ++ [m], mapInsert m mid s.1.partitions⟩, s.2)
    else return s

/-- `computeBestPartitions(threshold, min, max)`: `sources/opartitioner.cpp:13-42`, `sources/hpartitioner.cpp:14-43`,
`sources/dpartitioner.cpp:13-42`, with the list of calls. -/
def computeBestPartitionsC (ops : PartOps F K P T) (strict : Bool) (fuel : Nat) (t lo hi : F)
    (st : PState F K P T) : Res (PState F K P T × List F) := do
  let st := { st with pList := [], partitions := [], tuples := [], qualityList := [] }
  let pmin ← ops.best lo
  let acc : Acc F P := ⟨st.pList ++ [lo], mapInsert lo pmin st.partitions⟩
  let pmax ← ops.best hi
  let r ← addBestC ops t fuel pmin pmax (acc, [lo, hi])
  let acc : Acc F P := ⟨r.1.pList ++ [hi], mapInsert hi pmax r.1.partitions⟩
  let acc ← dedup ops strict (acc.pList.length - 1) acc
  return ({
    pList := acc.pList
    partitions := acc.partitions
    tuples := acc.partitions.foldl (fun l e => l ++ ops.rows e.1 e.2) st.tuples
    qualityList := acc.partitions.foldl (fun m e => mapInsert e.1 (ops.quality e.2) m) st.qualityList }, r.2)

end Lp
