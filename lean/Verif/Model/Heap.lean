import Verif.Model.DPartition
import Verif.Model.OQualities

/-!
# Shared `Quality` objects

The rest of the model gives every `Tradeoff`, every part and every cell of a table its own copy of the numbers of its
`shared_ptr<Quality>`.  This file models the same functions with an explicit memory: pointers to `Quality` objects,
allocation, the sharing created by the implicit copy assignment of `Tradeoff`, and writes through shared pointers.
`Props/C42.lean` relates the two.

Simplifications: objects are never freed (a `shared_ptr` keeps its object alive, and no pointer is ever compared);
each `Tradeoff` object is reached through a single vector (or matrix) cell, so the cell holds the object itself.
-/

namespace Lp
variable {F K : Type}

/-- The `Quality` objects, by address. -/
abbrev Heap (K : Type) := List (Quality K)

/-- `shared_ptr<Quality>` (not null). -/
abbrev Ptr := Nat

/-- A `Tradeoff` object: `headers/tradeoff.h:15-16`: a pointer to a `Quality` object and a value. -/
structure STr (K : Type) where
  value : K
  ptr : Ptr
  deriving DecidableEq, Repr

section
variable [LD K]

/-- `Tradeoff()`: `sources/tradeoff.cpp:27-31`: a new `Quality` object. -/
def STr.new (m : Heap K) : Heap K × STr K := (m ++ [Quality.zero], ⟨0, m.length⟩)

/-- `n` times `new Tradeoff()`, e.g. `sources/opartitioner.cpp:49-51`, `sources/hpartitioner.cpp:51-53`,
`sources/uppertriangularmatrix.cpp:39-44`. -/
def STr.news (m : Heap K) (n : Nat) : Heap K × List (STr K) :=
  (m ++ List.replicate n Quality.zero, (List.range n).map (fun i => ⟨0, m.length + i⟩))

/-- `set(quality, p)`: `sources/tradeoff.cpp:9-13`: a new `Quality` object, a copy of the argument. -/
def STr.set [FloatP F K] (m : Heap K) (a : Ptr) (p : F) : Res (Heap K × STr K) := do
  let q ← vget m a
  return (m ++ [q], ⟨Tradeoff.pic p q.gain q.loss, m.length⟩)

/-- `t += u`: `sources/tradeoff.cpp:59-63`: writes to the object that `t` points to (also if `u` points to it). -/
def STr.addTo (m : Heap K) (t u : STr K) : Res (Heap K × STr K) := do
  let a ← vget m t.ptr
  let b ← vget m u.ptr
  let m ← vset m t.ptr (a.add b)
  return (m, ⟨t.value + u.value, t.ptr⟩)

/-- The numbers that `operator>` and `operator<` read: `sources/tradeoff.cpp:140-158`. -/
def STr.read (m : Heap K) (t : STr K) : Res (Tradeoff K) := do
  let q ← vget m t.ptr
  return ⟨t.value, q.gain, q.loss⟩

/-- `computeQuality`: `sources/opartition.cpp:58-64`, `sources/hpartition.cpp:90-96`, `sources/dpartition.cpp:85-91`: a
new object to which the qualities of the parts are added. -/
def sSumQuality (m : Heap K) (l : List Ptr) : Res (Heap K × Ptr) := do
  let a := m.length
  let m ← forEach (fun b m => do
    let x ← vget m a
    let y ← vget m b
    vset m a (x.add y)) l (m ++ [Quality.zero])
  return (m, a)
end

/-! ## Ordered -/

/-- `class OPart`: `headers/opartition.h:16-33`. -/
structure SOPart where
  start : Int
  «end» : Int
  quality : Ptr
  deriving DecidableEq, Repr

/-- `class OPartition`: `headers/opartition.h:35-49`. -/
structure SOPartition (F : Type) where
  parameter : F
  cuts : List Int
  parts : List SOPart
  quality : Ptr
  deriving DecidableEq, Repr

/-- `computeParts`: `sources/opartition.cpp:49-55`: the part gets the pointer of the table. -/
def soParts (cuts : List Int) (q : UTM Ptr) : Nat → Int → Res (List SOPart)
  | 0, _ => .error .outOfFuel
  | fuel + 1, i =>
    if 0 ≤ i ∧ i < cuts.length then do
      let c ← vget cuts i.toNat
      let ci ← toIdx c
      let x ← q.get i.toNat ci
      let rest ← soParts cuts q fuel (c + 1)
      return ⟨i, c, x⟩ :: rest
    else return []

/-- Local variables of `computeBestPartition`: `sources/opartitioner.cpp:47-52`. -/
structure SOBest (K : Type) where
  mem : Heap K
  tt : STr K
  tr : List (STr K)
  cut : List Int

section
variable [LD K] [FloatP F K]

/-- Body of the `cut_t` loop: `sources/opartitioner.cpp:56-61`; line 60 makes `tradeoff[i]` share the object of
`tradeoff_t`. -/
def sobCut (q : UTM Ptr) (p : F) (i c : Nat) (s : SOBest K) : Res (SOBest K) := do
  let a ← q.get i c
  let (m, tt) ← STr.set s.mem a p
  let next ← vget s.tr (c + 1)
  let (m, tt) ← STr.addTo m tt next
  let cur ← vget s.tr i
  let x ← tt.read m
  let y ← cur.read m
  if x.gt y then do
    let cut ← vset s.cut i (c : Int)
    let tr ← vset s.tr i tt
    return ⟨m, tt, tr, cut⟩
  else return ⟨m, tt, s.tr, s.cut⟩

/-- Body of the `i` loop: `sources/opartitioner.cpp:54-62`. -/
def sobRow (q : UTM Ptr) (p : F) (i : Nat) (s : SOBest K) : Res (SOBest K) := do
  let a ← q.get i (q.size - 1)
  let (m, t) ← STr.set s.mem a p
  let tr ← vset s.tr i t
  forUp i (q.size - 1) (fun c s => sobCut q p i c s) ⟨m, s.tt, tr, s.cut⟩

/-- `OPartitioner::computeBestPartition`: `sources/opartitioner.cpp:44-66`. -/
def soBestPartition (m : Heap K) (q : UTM Ptr) (p : F) : Res (Heap K × SOPartition F) := do
  let (m, tr) := STr.news m q.size
  let (m, tt) := STr.new m
  let s ← forDown q.size (fun i s => sobRow q p i s) ⟨m, tt, tr, List.replicate q.size ((q.size : Int) - 1)⟩
  let parts ← soParts s.cut q (s.cut.length + 1) 0
  let (m, a) ← sSumQuality s.mem (parts.map SOPart.quality)
  return (m, ⟨p, s.cut, parts, a⟩)
end

/-! ## Hierarchical -/

/-- `class HPart`: `headers/hpartition.h:18-35`. -/
structure SHPart where
  h : Nat
  size : Nat
  quality : Ptr
  deriving DecidableEq, Repr

/-- `class HPartition`: `headers/hpartition.h:37-54`. -/
structure SHPartition (F : Type) where
  parameter : F
  aggregated : List Bool
  parts : List SHPart
  quality : Ptr
  deriving DecidableEq, Repr

/-- `computeSubPart(h)`: `sources/hpartition.cpp:78-87`. -/
def shSubPart (agg : List Bool) (q : List Ptr) (md : HMeta) : Nat → Nat → List SHPart → Res (List SHPart)
  | 0, _, _ => .error .outOfFuel
  | fuel + 1, h, parts => do
    let a ← vget agg h
    if a then do
      let x ← vget q h
      return parts ++ [⟨h, md.sizeOf h, x⟩]
    else do
      let ch ← vget md.children h
      forEach (fun c parts => shSubPart agg q md fuel c parts) ch parts

/-- Local variables of `computeBestPartition`: `sources/hpartitioner.cpp:47-55`. -/
structure SHBest (K : Type) where
  mem : Heap K
  tr : List (STr K)
  ch : List (STr K)
  agg : List Bool

section
variable [LD K] [FloatP F K]

/-- `(*tradeoffChildren[parents[h]]) += *(tradeoff[h])`: `sources/hpartitioner.cpp:60,68`. -/
def shbPush (md : HMeta) (h : Nat) (s : SHBest K) : Res (SHBest K) := do
  let p ← md.parentOf h
  let t ← vget s.tr h
  let c ← vget s.ch p
  let (m, c) ← STr.addTo s.mem c t
  let ch ← vset s.ch p c
  return { s with mem := m, ch := ch }

/-- `tradeoff[h]->set(qualities[h], p)`: `sources/hpartitioner.cpp:59,63,70`. -/
def shbSet (q : List Ptr) (p : F) (h : Nat) (s : SHBest K) : Res (SHBest K) := do
  let a ← vget q h
  let (m, t) ← STr.set s.mem a p
  let tr ← vset s.tr h t
  return { s with mem := m, tr := tr }

/-- `sources/hpartitioner.cpp:64-67,71-74`; the assignment makes `tradeoff[h]` share the object of
`tradeoffChildren[h]`. -/
def shbChoose (h : Nat) (s : SHBest K) : Res (SHBest K) := do
  let t ← vget s.tr h
  let c ← vget s.ch h
  let x ← t.read s.mem
  let y ← c.read s.mem
  if x.lt y then do
    let agg ← vset s.agg h false
    let tr ← vset s.tr h c
    return { s with tr := tr, agg := agg }
  else return s

/-- First loop (leaves): `sources/hpartitioner.cpp:59-60`. -/
def shbLeaf (q : List Ptr) (p : F) (md : HMeta) (i : Nat) (s : SHBest K) : Res (SHBest K) := do
  let h ← vget md.path i
  let s ← shbSet q p h s
  shbPush md h s

/-- Second loop (inner nodes): `sources/hpartitioner.cpp:63-68`. -/
def shbInner (q : List Ptr) (p : F) (md : HMeta) (i : Nat) (s : SHBest K) : Res (SHBest K) := do
  let h ← vget md.path i
  let s ← shbSet q p h s
  let s ← shbChoose h s
  shbPush md h s

/-- The loops of `computeBestPartition`: `sources/hpartitioner.cpp:47-74`.  (The allocations of lines 52 and 53, which
alternate, are made one vector after the other.) -/
def shbLoop (m : Heap K) (q : List Ptr) (p : F) (md : HMeta) : Res (SHBest K) := do
  let (m, tr) := STr.news m md.hsize
  let (m, ch) := STr.news m md.hsize
  let s ← forUp 0 md.leaveSize (fun i s => shbLeaf q p md i s) ⟨m, tr, ch, List.replicate md.hsize true⟩
  let _ ← vget md.path md.leaveSize
  let s ← forUp md.leaveSize (md.hsize - 1) (fun i s => shbInner q p md i s) s
  let h ← vget md.path (max md.leaveSize (md.hsize - 1))
  let s ← shbSet q p h s
  shbChoose h s

/-- `HPartitioner::computeBestPartition`: `sources/hpartitioner.cpp:45-77`, with the constructor
`sources/hpartition.cpp:65-76`. -/
def shBestPartition (m : Heap K) (q : List Ptr) (md : HMeta) (p : F) : Res (Heap K × SHPartition F) := do
  let s ← shbLoop m q p md
  let parts ← shSubPart s.agg q md (md.hsize + 1) md.root []
  let (m, a) ← sSumQuality s.mem (parts.map SHPart.quality)
  return (m, ⟨p, s.agg, parts, a⟩)
end

/-! ## Spatiotemporal -/

/-- `class DPart`: `headers/dpartition.h:18-46`. -/
structure SDPart where
  h : Nat
  hsize : Nat
  start : Nat
  «end» : Nat
  quality : Ptr
  deriving DecidableEq, Repr

/-- `class DPartition`: `headers/dpartition.h:48-71`. -/
structure SDPartition (F : Type) where
  parameter : F
  cuts : List (UTM Int)
  parts : List SDPart
  quality : Ptr
  deriving DecidableEq, Repr

/-- `computeSubPart(h,i,j)`: `sources/dpartition.cpp:69-82`. -/
def sdSubPart (cuts : List (UTM Int)) (q : List (UTM Ptr)) (md : HMeta) :
    Nat → Nat → Nat → Nat → List SDPart → Res (List SDPart)
  | 0, _, _, _, _ => .error .outOfFuel
  | fuel + 1, h, i, j, parts => do
    let cut ← mget cuts h i j
    if cut = -1 then do
      let ch ← vget md.children h
      forEach (fun c parts => sdSubPart cuts q md fuel c i j parts) ch parts
    else do
      let c ← toIdx cut
      let x ← mget q h i c
      let parts := parts ++ [⟨h, md.sizeOf h, i, c, x⟩]
      if c < j then sdSubPart cuts q md fuel h (c + 1) j parts else return parts

/-- Local variables of `computeBestPartition`: `sources/dpartitioner.cpp:47-56`. -/
structure SDBest (K : Type) where
  mem : Heap K
  cuts : List (UTM Int)
  tr : List (UTM (STr K))
  ch : List (UTM (STr K))

section
variable [LD K] [FloatP F K]

/-- `n` matrices of new tradeoffs: `sources/dpartitioner.cpp:53-54` with `sources/uppertriangularmatrix.cpp:39-44`. -/
def STr.newMats (osize : Nat) : Nat → Heap K → Heap K × List (UTM (STr K))
  | 0, m => (m, [])
  | n + 1, m =>
    let (m, l) := STr.news m (UTM.elements osize)
    let (m, r) := STr.newMats osize n m
    (m, ⟨osize, l⟩ :: r)

/-- Body of the `cut_t` loop: `sources/dpartitioner.cpp:71-78`. -/
def sdbCut (q : List (UTM Ptr)) (p : F) (h i j c : Nat) (s : SDBest K) : Res (SDBest K) := do
  let (m, tt) := STr.new s.mem                                         -- line 71
  let a ← mget q h i c
  let (m, t) ← STr.set m a p
  let tr ← mset s.tr h i c t                                           -- line 72
  let x ← mget tr h i c
  let y ← mget tr h (c + 1) j
  let (m, tt) ← STr.addTo m tt x                                       -- line 73
  let (m, tt) ← STr.addTo m tt y                                       -- line 74
  let cur ← mget tr h i j
  let u ← tt.read m
  let v ← cur.read m
  if u.gt v then do
    let cuts ← mset s.cuts h i j (c : Int)
    let tr ← mset tr h i j tt                                          -- line 77: shares
    return ⟨m, cuts, tr, s.ch⟩
  else return ⟨m, s.cuts, tr, s.ch⟩

/-- Body of the `j` loop: `sources/dpartitioner.cpp:62-82`. -/
def sdbCell (q : List (UTM Ptr)) (p : F) (md : HMeta) (k h i j : Nat) (s : SDBest K) : Res (SDBest K) := do
  let cuts ← mset s.cuts h i j (j : Int)                               -- line 62
  let a ← mget q h i j
  let (m, t) ← STr.set s.mem a p
  let tr ← mset s.tr h i j t                                           -- line 63
  let s : SDBest K := ⟨m, cuts, tr, s.ch⟩
  let s ← (if md.leaveSize ≤ k then do                                 -- lines 64-69
      let c ← mget s.ch h i j
      let cur ← mget s.tr h i j
      let u ← c.read s.mem
      let v ← cur.read s.mem
      if u.gt v then do
        let cuts ← mset s.cuts h i j (-1 : Int)
        let tr ← mset s.tr h i j c                                     -- line 67: shares
        return ⟨s.mem, cuts, tr, s.ch⟩
      else return s
    else return s : Res (SDBest K))
  let s ← forUp i j (fun c s => sdbCut q p h i j c s) s                -- lines 70-79
  if k < md.hsize - 1 then do                                          -- lines 80-82
    let pa ← md.parentOf h
    let a ← mget s.ch pa i j
    let t ← mget s.tr h i j
    let (m, a) ← STr.addTo s.mem a t
    let ch ← mset s.ch pa i j a
    return ⟨m, s.cuts, s.tr, ch⟩
  else return s

/-- One node: `sources/dpartitioner.cpp:60-84`. -/
def sdbNode (q : List (UTM Ptr)) (p : F) (md : HMeta) (osize k h : Nat) (s : SDBest K) : Res (SDBest K) :=
  forDown osize (fun i s => forUp i osize (fun j s => sdbCell q p md k h i j s) s) s

/-- The loop over the path: `sources/dpartitioner.cpp:59-88`. -/
def sdbPath (q : List (UTM Ptr)) (p : F) (md : HMeta) (osize : Nat) : Nat → Nat → SDBest K → Res (SDBest K)
  | 0, k, s => do let _ ← vget md.path k; return s
  | cnt + 1, k, s => do
    let h ← vget md.path k
    let s ← sdbNode q p md osize k h s
    if h = md.root then return s else sdbPath q p md osize cnt (k + 1) s

/-- The loops of `computeBestPartition`: `sources/dpartitioner.cpp:47-88` (allocations as in `shbLoop`). -/
def sdbLoop (m : Heap K) (q : List (UTM Ptr)) (p : F) (md : HMeta) : Res (SDBest K) := do
  let q0 ← vget q 0
  let osize := q0.size
  let (m, tr) := STr.newMats osize md.hsize m
  let (m, ch) := STr.newMats osize md.hsize m
  sdbPath q p md osize md.hsize 0 ⟨m, List.replicate md.hsize (UTM.mk' osize ((osize : Int) - 1)), tr, ch⟩

/-- `DPartitioner::computeBestPartition`: `sources/dpartitioner.cpp:45-91`, with the constructor
`sources/dpartition.cpp:53-67`. -/
def sdBestPartition (m : Heap K) (q : List (UTM Ptr)) (md : HMeta) (p : F) : Res (Heap K × SDPartition F) := do
  let s ← sdbLoop m q p md
  let q0 ← vget q 0
  if q0.size = 0 then .error .outOfBounds else do
    let parts ← sdSubPart s.cuts q md (md.hsize + q0.size + 1) md.root 0 (q0.size - 1) []
    let (m, a) ← sSumQuality s.mem (parts.map SDPart.quality)
    return (m, ⟨p, s.cuts, parts, a⟩)
end

/-! ## Tables of qualities -/

section
variable [LD K]

/-- `*a /= *mx`: `sources/quality.cpp:61-65` through pointers. -/
def sDivide (mx : Ptr) (a : Ptr) (m : Heap K) : Res (Heap K) := do
  let x ← vget m a
  let y ← vget m mx
  vset m a (x.div y)

/-- `OQualities::normalize`: `sources/oqualities.cpp:13-19`. -/
def soNormalize (osize : Nat) (q : UTM Ptr) (m : Heap K) : Res (Heap K) := do
  let mx ← vget q.data (UTM.index q.size 0 (osize - 1))
  forUp 0 q.getElements (fun i m => do
    let a ← vget q.data i
    sDivide mx a m) m

/-- `HQualities::normalize`: `sources/hqualities.cpp:14-20`. -/
def shNormalize (md : HMeta) (q : List Ptr) (m : Heap K) : Res (Heap K) := do
  let mx ← vget q md.root
  forUp 0 q.length (fun i m => do
    let a ← vget q i
    sDivide mx a m) m

/-- `DQualities::normalize`: `sources/dqualities.cpp:13-21`. -/
def sdNormalize (md : HMeta) (osize : Nat) (q : List (UTM Ptr)) (m : Heap K) : Res (Heap K) := do
  let t ← vget q md.root
  let mx ← vget t.data (UTM.index t.size 0 (osize - 1))
  forUp 0 md.hsize (fun h m => do
    let t ← vget q h
    forUp 0 t.getElements (fun i m => do
      let a ← vget t.data i
      sDivide mx a m) m) m

/-- A vector of new `Quality` objects with the given contents: the tables that `computeQualities` creates
(`sources/hqualities.cpp:29-32`).  Simplification: the contents are those at the end of `computeQualities`, which
fills objects that nothing else points to yet. -/
def sNewVec (m : Heap K) (l : List (Quality K)) : Heap K × List Ptr :=
  (m ++ l, (List.range l.length).map (fun i => m.length + i))

/-- A matrix of new objects: `sources/oqualities.cpp:30` with `sources/uppertriangularmatrix.cpp:31-36`. -/
def sNewMat (m : Heap K) (q : UTM (Quality K)) : Heap K × UTM Ptr :=
  let (m, d) := sNewVec m q.data
  (m, ⟨q.size, d⟩)

/-- A vector of matrices of new objects: `sources/dqualities.cpp:31-36`. -/
def sNewMats : Heap K → List (UTM (Quality K)) → Heap K × List (UTM Ptr)
  | m, [] => (m, [])
  | m, q :: l =>
    let (m, t) := sNewMat m q
    let (m, r) := sNewMats m l
    (m, t :: r)
end

end Lp
