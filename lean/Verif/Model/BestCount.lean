import Verif.Model.DPartition

/-!
# One best partition again, counting the comparisons of tradeoffs

The same source lines as `oBestPartition`, `hBestPartition` and `dBestPartition`, with a counter that goes up by one each time two
tradeoffs are compared (`operator>` or `operator<` of `Tradeoff`).  `Props/C101.lean` proves that the results are those of the
functions without counter.
-/

namespace Lp
variable {F K : Type} [LD K] [FloatP F K]

/-- Body of the `cut_t` loop with the counter: `sources/opartitioner.cpp:56-61`. -/
def obCutC (q : UTM (Quality K)) (p : F) (i c : Nat) (s : OBest K × Nat) : Res (OBest K × Nat) := do
  let qic ← q.get i c
  let next ← vget s.1.tr (c + 1)
  let t := (Tradeoff.set qic p).add next
  let cur ← vget s.1.tr i
  let k := s.2 + 1                                                     -- line 58: `>`
  if t.gt cur then do
    let cut ← vset s.1.cut i (c : Int)
    let tr ← vset s.1.tr i t
    return (⟨tr, cut⟩, k)
  else return (s.1, k)

/-- Body of the `i` loop with the counter: `sources/opartitioner.cpp:54-62`. -/
def obRowC (q : UTM (Quality K)) (p : F) (i : Nat) (s : OBest K × Nat) : Res (OBest K × Nat) := do
  let qi ← q.get i (q.size - 1)
  let tr ← vset s.1.tr i (Tradeoff.set qi p)
  forUp i (q.size - 1) (fun c s => obCutC q p i c s) (⟨tr, s.1.cut⟩, s.2)

/-- `OPartitioner::computeBestPartition` with the counter: `sources/opartitioner.cpp:44-66`. -/
def oBestPartitionC (q : UTM (Quality K)) (p : F) : Res (OPartition F K × Nat) := do
  let s ← forDown q.size (fun i s => obRowC q p i s)
    ((⟨List.replicate q.size Tradeoff.zero, List.replicate q.size ((q.size : Int) - 1)⟩ : OBest K), 0)
  let P ← mkOPartition s.1.cut q p
  return (P, s.2)

/-- The comparison `tradeoff[h] < tradeoffChildren[h]` with the counter: `sources/hpartitioner.cpp:64-67,71-74`. -/
def hbChooseC (h : Nat) (s : HBest K × Nat) : Res (HBest K × Nat) := do
  let t ← vget s.1.tr h
  let c ← vget s.1.ch h
  let k := s.2 + 1                                                     -- lines 64,71: `<`
  if t.lt c then do
    let agg ← vset s.1.agg h false
    let tr ← vset s.1.tr h c
    return ({ s.1 with tr := tr, agg := agg }, k)
  else return (s.1, k)

/-- First loop (leaves) with the counter: `sources/hpartitioner.cpp:59-60`; no comparison. -/
def hbLeafC (q : List (Quality K)) (p : F) (md : HMeta) (i : Nat) (s : HBest K × Nat) : Res (HBest K × Nat) := do
  let h ← vget md.path i
  let t ← hbSet q p h s.1
  let t ← hbPush md h t
  return (t, s.2)

/-- Second loop (inner nodes) with the counter: `sources/hpartitioner.cpp:63-68`. -/
def hbInnerC (q : List (Quality K)) (p : F) (md : HMeta) (i : Nat) (s : HBest K × Nat) : Res (HBest K × Nat) := do
  let h ← vget md.path i
  let t ← hbSet q p h s.1
  let s ← hbChooseC h (t, s.2)
  let t ← hbPush md h s.1
  return (t, s.2)

/-- `HPartitioner::computeBestPartition` with the counter: `sources/hpartitioner.cpp:45-77`. -/
def hBestPartitionC (q : List (Quality K)) (md : HMeta) (p : F) : Res (HPartition F K × Nat) := do
  let s0 : HBest K := ⟨List.replicate md.hsize Tradeoff.zero, List.replicate md.hsize Tradeoff.zero,
    List.replicate md.hsize true⟩
  let s ← forUp 0 md.leaveSize (fun i s => hbLeafC q p md i s) (s0, 0)
  let _ ← vget md.path md.leaveSize
  let s ← forUp md.leaveSize (md.hsize - 1) (fun i s => hbInnerC q p md i s) s
  let h ← vget md.path (max md.leaveSize (md.hsize - 1))
  let t ← hbSet q p h s.1
  let s ← hbChooseC h (t, s.2)
  let P ← mkHPartition s.1.agg q p md
  return (P, s.2)

/-- Body of the `cut_t` loop with the counter: `sources/dpartitioner.cpp:71-78`. -/
def dbCutC (q : List (UTM (Quality K))) (p : F) (h i j c : Nat) (s : DBest K × Nat) : Res (DBest K × Nat) := do
  let qic ← mget q h i c
  let tr ← mset s.1.tr h i c (Tradeoff.set qic p)
  let a ← mget tr h i c
  let b ← mget tr h (c + 1) j
  let t := (Tradeoff.zero.add a).add b
  let cur ← mget tr h i j
  let k := s.2 + 1                                                     -- line 75: `>`
  if t.gt cur then do
    let cuts ← mset s.1.cuts h i j (c : Int)
    let tr ← mset tr h i j t
    return (⟨cuts, tr, s.1.ch⟩, k)
  else return (⟨s.1.cuts, tr, s.1.ch⟩, k)

/-- Body of the `j` loop with the counter: `sources/dpartitioner.cpp:62-82`. -/
def dbCellC (q : List (UTM (Quality K))) (p : F) (md : HMeta) (k h i j : Nat) (s : DBest K × Nat) :
    Res (DBest K × Nat) := do
  let cuts ← mset s.1.cuts h i j (j : Int)
  let qij ← mget q h i j
  let tr ← mset s.1.tr h i j (Tradeoff.set qij p)
  let s : DBest K × Nat := (⟨cuts, tr, s.1.ch⟩, s.2)
  let s ← (if md.leaveSize ≤ k then do
      let c ← mget s.1.ch h i j
      let cur ← mget s.1.tr h i j
      let n := s.2 + 1                                                 -- line 65: `>`
      if c.gt cur then do
        let cuts ← mset s.1.cuts h i j (-1 : Int)
        let tr ← mset s.1.tr h i j c
        return (⟨cuts, tr, s.1.ch⟩, n)
      else return (s.1, n)
    else return s : Res (DBest K × Nat))
  let s ← forUp i j (fun c s => dbCutC q p h i j c s) s
  if k < md.hsize - 1 then do
    let pa ← md.parentOf h
    let a ← mget s.1.ch pa i j
    let t ← mget s.1.tr h i j
    let ch ← mset s.1.ch pa i j (a.add t)
    return (⟨s.1.cuts, s.1.tr, ch⟩, s.2)
  else return s

/-- One node with the counter: `sources/dpartitioner.cpp:60-84`. -/
def dbNodeC (q : List (UTM (Quality K))) (p : F) (md : HMeta) (osize k h : Nat) (s : DBest K × Nat) :
    Res (DBest K × Nat) :=
  forDown osize (fun i s => forUp i osize (fun j s => dbCellC q p md k h i j s) s) s

/-- The loop over the path with the counter: `sources/dpartitioner.cpp:59-88`. -/
def dbPathC (q : List (UTM (Quality K))) (p : F) (md : HMeta) (osize : Nat) :
    Nat → Nat → DBest K × Nat → Res (DBest K × Nat)
  | 0, k, s => do let _ ← vget md.path k; return s
  | cnt + 1, k, s => do
    let h ← vget md.path k
    let s ← dbNodeC q p md osize k h s
    if h = md.root then return s else dbPathC q p md osize cnt (k + 1) s

/-- `DPartitioner::computeBestPartition` with the counter: `sources/dpartitioner.cpp:45-91`. -/
def dBestPartitionC (q : List (UTM (Quality K))) (md : HMeta) (p : F) : Res (DPartition F K × Nat) := do
  let q0 ← vget q 0
  let osize := q0.size
  let z := List.replicate md.hsize (UTM.mk' osize (Tradeoff.zero : Tradeoff K))
  let s ← dbPathC q p md osize md.hsize 0
    ((⟨List.replicate md.hsize (UTM.mk' osize ((osize : Int) - 1)), z, z⟩ : DBest K), 0)
  let P ← mkDPartition s.1.cuts q p md
  return (P, s.2)

end Lp
