import Verif.Model.Tradeoff
import Verif.Model.UTM

/-!
# `OPartition` and `OPartitioner::computeBestPartition` (sources/opartition.cpp, sources/opartitioner.cpp)
-/

namespace Lp
variable {F K : Type}

/-- `class OPart`: `headers/opartition.h:16-33`.  The shared quality object is its value at construction. -/
structure OPart (K : Type) where
  start : Int
  «end» : Int
  quality : Quality K
  deriving DecidableEq, Repr

/-- `OPart::getSize`: `sources/opartition.cpp:19-22`. -/
def OPart.getSize (p : OPart K) : Int := p.end - p.start + 1

/-- `operator==(OPart, OPart)`: `sources/opartition.cpp:72-75`. -/
def OPart.eqOp (a b : OPart K) : Bool := (a.start == b.start) && (a.end == b.end)

/-- `class OPartition`: `headers/opartition.h:35-49` with the base class `headers/partition.h:15-25`. -/
structure OPartition (F K : Type) where
  parameter : F
  cuts : List Int
  parts : List (OPart K)
  quality : Quality K
  deriving DecidableEq, Repr

/-- The loop of `computeParts`: `sources/opartition.cpp:52-54`, with a step budget.
`i` is an `int` compared with a `size_t`: a negative `i` is a huge number and ends the loop. -/
def oParts (cuts : List Int) (q : UTM (Quality K)) : Nat → Int → Res (List (OPart K))
  | 0, _ => .error .outOfFuel
  | fuel + 1, i =>
    if 0 ≤ i ∧ i < cuts.length then do
      let c ← vget cuts i.toNat
      let ci ← toIdx c
      let x ← q.get i.toNat ci
      let rest ← oParts cuts q fuel (c + 1)
      return ⟨i, c, x⟩ :: rest
    else return []

/-- `computeQuality`: `sources/opartition.cpp:58-64`, `sources/hpartition.cpp:90-96`,
`sources/dpartition.cpp:85-91`: sum of the qualities of the parts, starting from `Quality()`. -/
def sumQuality [LD K] (l : List (Quality K)) : Quality K := l.foldl Quality.add Quality.zero

/-- `OPartition(cuts, qualities, parameter)`: `sources/opartition.cpp:30-34`.  The budget is one more than the
number of cells; `C15` proves that the partitioner's cuts never exhaust it. -/
def mkOPartition [LD K] (cuts : List Int) (q : UTM (Quality K)) (p : F) : Res (OPartition F K) := do
  let parts ← oParts cuts q (cuts.length + 1) 0
  return ⟨p, cuts, parts, sumQuality (parts.map OPart.quality)⟩

/-- Element-wise comparison loop of `operator==`: `sources/opartition.cpp:89-93`, `sources/hpartition.cpp:41-45`. -/
def allEq {α : Type} (eq : α → α → Bool) : List α → List α → Bool
  | a :: l, b :: m => eq a b && allEq eq l m
  | _, _ => true

/-- `operator==(OPartition, OPartition)`: `sources/opartition.cpp:84-96`. -/
def OPartition.eqOp (a b : OPartition F K) : Bool :=
  if a.parts.length ≠ b.parts.length then false else allEq OPart.eqOp a.parts b.parts

/-- Working vectors of `computeBestPartition`: `sources/opartitioner.cpp:47-51`. -/
structure OBest (K : Type) where
  tr : List (Tradeoff K)
  cut : List Int

variable [LD K] [FloatP F K]

/-- Body of the `cut_t` loop: `sources/opartitioner.cpp:56-61`. -/
def obCut (q : UTM (Quality K)) (p : F) (i c : Nat) (s : OBest K) : Res (OBest K) := do
  let qic ← q.get i c
  let next ← vget s.tr (c + 1)
  let t := (Tradeoff.set qic p).add next
  let cur ← vget s.tr i
  if t.gt cur then do
    let cut ← vset s.cut i (c : Int)
    let tr ← vset s.tr i t
    return ⟨tr, cut⟩
  else return s

/-- Body of the `i` loop: `sources/opartitioner.cpp:54-62`. -/
def obRow (q : UTM (Quality K)) (p : F) (i : Nat) (s : OBest K) : Res (OBest K) := do
  let qi ← q.get i (q.size - 1)
  let tr ← vset s.tr i (Tradeoff.set qi p)
  forUp i (q.size - 1) (fun c s => obCut q p i c s) ⟨tr, s.cut⟩

/-- `OPartitioner::computeBestPartition` up to line 63: `sources/opartitioner.cpp:46-63`. -/
def obLoop (q : UTM (Quality K)) (p : F) : Res (OBest K) :=
  forDown q.size (fun i s => obRow q p i s)
    ⟨List.replicate q.size Tradeoff.zero, List.replicate q.size ((q.size : Int) - 1)⟩

/-- `OPartitioner::computeBestPartition`: `sources/opartitioner.cpp:44-66`. -/
def oBestPartition (q : UTM (Quality K)) (p : F) : Res (OPartition F K) := do
  let s ← obLoop q p
  mkOPartition s.cut q p

end Lp
