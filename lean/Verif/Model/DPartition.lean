import Verif.Model.HPartition
import Verif.Model.DQualities

/-!
# `DPartition` and `DPartitioner::computeBestPartition` (sources/dpartition.cpp, sources/dpartitioner.cpp)
-/

namespace Lp
variable {F K : Type}

/-- `class DPart`: `headers/dpartition.h:18-46`. -/
structure DPart (K : Type) where
  h : Nat
  hsize : Nat
  start : Nat
  «end» : Nat
  quality : Quality K
  deriving DecidableEq, Repr

/-- `DPart::getSize`: `sources/dpartition.cpp:28-31,48-51`: `hsize*(end-start+1)` (not checked for overflow). -/
def DPart.getSize (p : DPart K) : Int := p.hsize * ((p.end : Int) - p.start + 1)

/-- `operator==(DPart, DPart)`: `sources/dpartition.cpp:8-11`. -/
def DPart.eqOp (a b : DPart K) : Bool :=
  (a.start == b.start) && (a.end == b.end) && (a.h == b.h) && (a.getSize == b.getSize)

/-- `class DPartition`: `headers/dpartition.h:48-71` (the unused member `parameter` of the derived class is
omitted: `getParameter` reads the base class member). -/
structure DPartition (F K : Type) where
  parameter : F
  cuts : List (UTM Int)
  parts : List (DPart K)
  quality : Quality K
  deriving DecidableEq, Repr

/-- `computeSubPart(h,i,j)`: `sources/dpartition.cpp:69-82`, appending to `parts`, with a recursion budget. -/
def dSubPart (cuts : List (UTM Int)) (q : List (UTM (Quality K))) (md : HMeta) :
    Nat → Nat → Nat → Nat → List (DPart K) → Res (List (DPart K))
  | 0, _, _, _, _ => .error .outOfFuel
  | fuel + 1, h, i, j, parts => do
    let cut ← mget cuts h i j
    if cut = -1 then do
      let ch ← vget md.children h
      forEach (fun c parts => dSubPart cuts q md fuel c i j parts) ch parts
    else do
      let c ← toIdx cut
      let x ← mget q h i c
      let parts := parts ++ [⟨h, md.sizeOf h, i, c, x⟩]
      if c < j then dSubPart cuts q md fuel h (c + 1) j parts else return parts

/-- `DPartition(cuts, qualities, parameter, metaData)`: `sources/dpartition.cpp:53-67`.  For an empty ordered
dimension `j = -1` and the access is out of range. -/
def mkDPartition [LD K] (cuts : List (UTM Int)) (q : List (UTM (Quality K))) (p : F) (md : HMeta) :
    Res (DPartition F K) := do
  let q0 ← vget q 0
  if q0.size = 0 then .error .outOfBounds else do
    let parts ← dSubPart cuts q md (md.hsize + q0.size + 1) md.root 0 (q0.size - 1) []
    return ⟨p, cuts, parts, sumQuality (parts.map DPart.quality)⟩

/-- `operator==(DPartition, DPartition)`: `sources/dpartition.cpp:113-134`: same number of parts and every part
of the first equals some part of the second. -/
def DPartition.eqOp (a b : DPartition F K) : Bool :=
  if a.parts.length ≠ b.parts.length then false
  else a.parts.all (fun x => b.parts.any (fun y => DPart.eqOp x y))

/-- Working matrices of `computeBestPartition`: `sources/dpartitioner.cpp:48-56`. -/
structure DBest (K : Type) where
  cuts : List (UTM Int)
  tr : List (UTM (Tradeoff K))
  ch : List (UTM (Tradeoff K))

variable [LD K] [FloatP F K]

/-- Body of the `cut_t` loop: `sources/dpartitioner.cpp:71-78`.  Line 72 resets the tradeoff of `(i,cut_t)` to
that of the aggregate. -/
def dbCut (q : List (UTM (Quality K))) (p : F) (h i j c : Nat) (s : DBest K) : Res (DBest K) := do
  let qic ← mget q h i c
  let tr ← mset s.tr h i c (Tradeoff.set qic p)                        -- line 72
  let a ← mget tr h i c
  let b ← mget tr h (c + 1) j
  let t := (Tradeoff.zero.add a).add b                                 -- lines 71,73,74
  let cur ← mget tr h i j
  if t.gt cur then do
    let cuts ← mset s.cuts h i j (c : Int)
    let tr ← mset tr h i j t
    return ⟨cuts, tr, s.ch⟩
  else return ⟨s.cuts, tr, s.ch⟩

/-- Body of the `j` loop: `sources/dpartitioner.cpp:62-82`. -/
def dbCell (q : List (UTM (Quality K))) (p : F) (md : HMeta) (k h i j : Nat) (s : DBest K) :
    Res (DBest K) := do
  let cuts ← mset s.cuts h i j (j : Int)                               -- line 62
  let qij ← mget q h i j
  let tr ← mset s.tr h i j (Tradeoff.set qij p)                        -- line 63
  let s : DBest K := ⟨cuts, tr, s.ch⟩
  let s ← (if md.leaveSize ≤ k then do                                 -- lines 64-69
      let c ← mget s.ch h i j
      let cur ← mget s.tr h i j
      if c.gt cur then do
        let cuts ← mset s.cuts h i j (-1 : Int)
        let tr ← mset s.tr h i j c
        return ⟨cuts, tr, s.ch⟩
      else return s
    else return s : Res (DBest K))
  let s ← forUp i j (fun c s => dbCut q p h i j c s) s                 -- lines 70-79
  if k < md.hsize - 1 then do                                          -- lines 80-82
    let pa ← md.parentOf h
    let a ← mget s.ch pa i j
    let t ← mget s.tr h i j
    let ch ← mset s.ch pa i j (a.add t)
    return ⟨s.cuts, s.tr, ch⟩
  else return s

/-- One node: `sources/dpartitioner.cpp:60-84`. -/
def dbNode (q : List (UTM (Quality K))) (p : F) (md : HMeta) (osize k h : Nat) (s : DBest K) :
    Res (DBest K) :=
  forDown osize (fun i s => forUp i osize (fun j s => dbCell q p md k h i j s) s) s

/-- The loop over the path with its `break`: `sources/dpartitioner.cpp:59-88`.  After the last iteration the
header still reads `path[hsize]`. -/
def dbPath (q : List (UTM (Quality K))) (p : F) (md : HMeta) (osize : Nat) :
    Nat → Nat → DBest K → Res (DBest K)
  | 0, k, s => do let _ ← vget md.path k; return s
  | cnt + 1, k, s => do
    let h ← vget md.path k
    let s ← dbNode q p md osize k h s
    if h = md.root then return s else dbPath q p md osize cnt (k + 1) s

/-- `DPartitioner::computeBestPartition` up to line 88: `sources/dpartitioner.cpp:47-88`. -/
def dbLoop (q : List (UTM (Quality K))) (p : F) (md : HMeta) : Res (DBest K) := do
  let q0 ← vget q 0
  let osize := q0.size
  let z := List.replicate md.hsize (UTM.mk' osize (Tradeoff.zero : Tradeoff K))
  dbPath q p md osize md.hsize 0 ⟨List.replicate md.hsize (UTM.mk' osize ((osize : Int) - 1)), z, z⟩

/-- `DPartitioner::computeBestPartition`: `sources/dpartitioner.cpp:45-91`. -/
def dBestPartition (q : List (UTM (Quality K))) (md : HMeta) (p : F) : Res (DPartition F K) := do
  let s ← dbLoop q p md
  mkDPartition s.cuts q p md

end Lp
