import Verif.Model.OPartition
import Verif.Model.Meta

/-!
# `HPartition` and `HPartitioner::computeBestPartition` (sources/hpartition.cpp, sources/hpartitioner.cpp)
-/

namespace Lp
variable {F K : Type}

/-- `class HPart`: `headers/hpartition.h:18-35`. -/
structure HPart (K : Type) where
  h : Nat
  size : Nat
  quality : Quality K
  deriving DecidableEq, Repr

/-- `operator==(HPart, HPart)`: `sources/hpartition.cpp:24-27`. -/
def HPart.eqOp (a b : HPart K) : Bool := (a.size == b.size) && (a.h == b.h)

/-- `class HPartition`: `headers/hpartition.h:37-54` (the metadata copy is not repeated). -/
structure HPartition (F K : Type) where
  parameter : F
  aggregated : List Bool
  parts : List (HPart K)
  quality : Quality K
  deriving DecidableEq, Repr

/-- `computeSubPart(h)`: `sources/hpartition.cpp:78-87`, appending to `parts`, with a recursion budget. -/
def hSubPart (agg : List Bool) (q : List (Quality K)) (md : HMeta) :
    Nat → Nat → List (HPart K) → Res (List (HPart K))
  | 0, _, _ => .error .outOfFuel
  | fuel + 1, h, parts => do
    let a ← vget agg h
    if a then do
      let x ← vget q h
      return parts ++ [⟨h, md.sizeOf h, x⟩]
    else do
      let ch ← vget md.children h
      forEach (fun c parts => hSubPart agg q md fuel c parts) ch parts

/-- `HPartition(aggregated, qualities, parameter, metaData)`: `sources/hpartition.cpp:65-76`. The budget is one
more than the number of nodes; `C18` proves that it is never exhausted with right metadata. -/
def mkHPartition [LD K] (agg : List Bool) (q : List (Quality K)) (p : F) (md : HMeta) :
    Res (HPartition F K) := do
  let parts ← hSubPart agg q md (md.hsize + 1) md.root []
  return ⟨p, agg, parts, sumQuality (parts.map HPart.quality)⟩

/-- `operator==(HPartition, HPartition)`: `sources/hpartition.cpp:36-48`. -/
def HPartition.eqOp (a b : HPartition F K) : Bool :=
  if a.parts.length ≠ b.parts.length then false else allEq HPart.eqOp a.parts b.parts

/-- Working vectors of `computeBestPartition`: `sources/hpartitioner.cpp:48-55`. -/
structure HBest (K : Type) where
  tr : List (Tradeoff K)
  ch : List (Tradeoff K)
  agg : List Bool

variable [LD K] [FloatP F K]

/-- `(*tradeoffChildren[parents[h]]) += *(tradeoff[h])`: `sources/hpartitioner.cpp:60,68`. -/
def hbPush (md : HMeta) (h : Nat) (s : HBest K) : Res (HBest K) := do
  let p ← md.parentOf h
  let t ← vget s.tr h
  let c ← vget s.ch p
  let ch ← vset s.ch p (c.add t)
  return { s with ch := ch }

/-- `tradeoff[h]->set(qualities[h], p)`: `sources/hpartitioner.cpp:59,63,70`. -/
def hbSet (q : List (Quality K)) (p : F) (h : Nat) (s : HBest K) : Res (HBest K) := do
  let qh ← vget q h
  let tr ← vset s.tr h (Tradeoff.set qh p)
  return { s with tr := tr }

/-- The comparison `tradeoff[h] < tradeoffChildren[h]`: `sources/hpartitioner.cpp:64-67,71-74`. -/
def hbChoose (h : Nat) (s : HBest K) : Res (HBest K) := do
  let t ← vget s.tr h
  let c ← vget s.ch h
  if t.lt c then do
    let agg ← vset s.agg h false
    let tr ← vset s.tr h c
    return { s with tr := tr, agg := agg }
  else return s

/-- First loop (leaves): `sources/hpartitioner.cpp:59-60`. -/
def hbLeaf (q : List (Quality K)) (p : F) (md : HMeta) (i : Nat) (s : HBest K) : Res (HBest K) := do
  let h ← vget md.path i
  let s ← hbSet q p h s
  hbPush md h s

/-- Second loop (inner nodes): `sources/hpartitioner.cpp:63-68`. -/
def hbInner (q : List (Quality K)) (p : F) (md : HMeta) (i : Nat) (s : HBest K) : Res (HBest K) := do
  let h ← vget md.path i
  let s ← hbSet q p h s
  let s ← hbChoose h s
  hbPush md h s

/-- `HPartitioner::computeBestPartition` up to line 74: `sources/hpartitioner.cpp:47-74`. -/
def hbLoop (q : List (Quality K)) (p : F) (md : HMeta) : Res (HBest K) := do
  let s0 : HBest K := ⟨List.replicate md.hsize Tradeoff.zero, List.replicate md.hsize Tradeoff.zero,
    List.replicate md.hsize true⟩
  let s ← forUp 0 md.leaveSize (fun i s => hbLeaf q p md i s) s0
  let _ ← vget md.path md.leaveSize                -- `h = path[++i]` when leaving the first loop
  let s ← forUp md.leaveSize (md.hsize - 1) (fun i s => hbInner q p md i s) s
  let h ← vget md.path (max md.leaveSize (md.hsize - 1))
  let s ← hbSet q p h s
  hbChoose h s

/-- `HPartitioner::computeBestPartition`: `sources/hpartitioner.cpp:45-77`. -/
def hBestPartition (q : List (Quality K)) (md : HMeta) (p : F) : Res (HPartition F K) := do
  let s ← hbLoop q p md
  mkHPartition s.agg q p md

end Lp
