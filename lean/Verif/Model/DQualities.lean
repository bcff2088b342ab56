import Verif.Model.HQualities
import Verif.Model.UTM

/-!
# `DQualities` (sources/dqualities.cpp)
-/

namespace Lp
variable {K : Type}

/-- Working matrices of `computeQualities`: `sources/dqualities.cpp:31-43`, one per node. -/
structure DSt (K : Type) where
  sum : List (UTM K)
  info : List (UTM K)
  q : List (UTM (Quality K))

/-- `(m[h])(i,j)`. -/
def mget {α : Type} (m : List (UTM α)) (h i j : Nat) : Res α := do
  let t ← vget m h
  t.get i j

/-- `(m[h])(i,j,x)`. -/
def mset {α : Type} (m : List (UTM α)) (h i j : Nat) (x : α) : Res (List (UTM α)) := do
  let t ← vget m h
  let t' ← t.set i j x
  vset m h t'

/-- Product of two `int`s; overflow is undefined behaviour. -/
def mulInt (a b : Int) : Res Int := if a * b < 2147483648 then .ok (a * b) else .error .intOverflow

section
variable [LDLog K]

/-- `(sum[parent])(i,j, (sum[parent])(i,j) + (sum[h])(i,j))` and the same for `info`:
`sources/dqualities.cpp:48-49,55-56,65-66`. -/
def dqPush (md : HMeta) (h i j : Nat) (s : DSt K) : Res (DSt K) := do
  let p ← md.parentOf h
  let a ← mget s.sum p i j
  let b ← mget s.sum h i j
  let sum ← mset s.sum p i j (a + b)
  let c ← mget s.info p i j
  let d ← mget s.info h i j
  let info ← mset s.info p i j (c + d)
  return ⟨sum, info, s.q⟩

/-- `addToGain`, `addToLoss` of cell `(h,i,j)`: `sources/dqualities.cpp:53-54,63-64,72-73`; `n` is the number
of microscopic values. -/
def dqAdd (h i j : Nat) (n : Int) (s : DSt K) : Res (DSt K) := do
  let a ← mget s.sum h i j
  let b ← mget s.info h i j
  let q0 ← mget s.q h i j
  let q ← mset s.q h i j ((q0.addToGain (entropyReduction a b)).addToLoss (divergence n a b))
  return { s with q := q }

/-- Body of the `j` loop for a leaf: `sources/dqualities.cpp:51-56`. -/
def dqLeafCell (md : HMeta) (h i j : Nat) (s : DSt K) : Res (DSt K) := do
  let a ← mget s.sum h (i + 1) j
  let b ← mget s.sum h i i
  let sum ← mset s.sum h i j (a + b)
  let c ← mget s.info h (i + 1) j
  let d ← mget s.info h i i
  let info ← mset s.info h i j (c + d)
  let s ← dqAdd h i j ((j : Int) - i + 1) ⟨sum, info, s.q⟩
  dqPush md h i j s

/-- Body of the `i` loop for a leaf: `sources/dqualities.cpp:46-57`. -/
def dqLeafRow (v : DValues K) (md : HMeta) (k h i : Nat) (s : DSt K) : Res (DSt K) := do
  let row ← v.series h k
  let x ← vget row i
  let sum ← mset s.sum h i i x
  let info ← mset s.info h i i (entropyReduction x 0)
  let s ← dqPush md h i i ⟨sum, info, s.q⟩
  forUp (i + 1) v.osize (fun j s => dqLeafCell md h i j s) s

/-- First loop, one leaf: `sources/dqualities.cpp:45-58`. -/
def dqLeaf (v : DValues K) (md : HMeta) (k i : Nat) (s : DSt K) : Res (DSt K) := do
  let h ← vget md.path i
  forDown v.osize (fun i s => dqLeafRow v md k h i s) s

/-- Number of microscopic values `(j-i+1)*size[h]`: `sources/dqualities.cpp:64,73`. -/
def dqCount (md : HMeta) (h i j : Nat) : Res Int := mulInt ((j : Int) - i + 1) (md.sizeOf h)

/-- Second loop, one inner node: `sources/dqualities.cpp:61-68`. -/
def dqInner (osize : Nat) (md : HMeta) (i : Nat) (s : DSt K) : Res (DSt K) := do
  let h ← vget md.path i
  forDown osize (fun i s => forUp i osize (fun j s => do
    let n ← dqCount md h i j
    let s ← dqAdd h i j n s
    dqPush md h i j s) s) s

/-- The root: `sources/dqualities.cpp:70-75`. -/
def dqRoot (osize : Nat) (md : HMeta) (h : Nat) (s : DSt K) : Res (DSt K) :=
  forDown osize (fun i s => forUp i osize (fun j s => do
    let n ← dqCount md h i j
    dqAdd h i j n s) s) s

/-- One series: `sources/dqualities.cpp:36-75`. -/
def dqSeries (v : DValues K) (md : HMeta) (k : Nat) (q : List (UTM (Quality K))) :
    Res (List (UTM (Quality K))) := do
  let z := List.replicate md.hsize (UTM.mk' v.osize (0 : K))
  let s ← forUp 0 md.leaveSize (fun i s => dqLeaf v md k i s) ⟨z, z, q⟩
  let _ ← vget md.path md.leaveSize
  let s ← forUp md.leaveSize (md.hsize - 1) (fun i s => dqInner v.osize md i s) s
  let h ← vget md.path (max md.leaveSize (md.hsize - 1))
  let s ← dqRoot v.osize md h s
  return s.q

/-- `computeQualities` for an object with values: `sources/dqualities.cpp:28-76`. -/
def dqCompute (v : DValues K) (md : HMeta) : Res (List (UTM (Quality K))) :=
  forUp 0 v.vsize (fun k q => dqSeries v md k q)
    (List.replicate md.hsize (UTM.mk' v.osize Quality.zero))
end

section
variable [LD K]

/-- Flat read and write of element `i` of the matrix of node `h`. -/
def fget {α : Type} (m : List (UTM α)) (h i : Nat) : Res α := do
  let t ← vget m h
  vget t.data i

/-- See `fget`. -/
def fset {α : Type} (m : List (UTM α)) (h i : Nat) (x : α) : Res (List (UTM α)) := do
  let t ← vget m h
  let d ← vset t.data i x
  vset m h { t with data := d }

/-- `normalize`: `sources/dqualities.cpp:13-21`; `max` points to cell `(root, 0, osize-1)` of the table that the
loop overwrites, so it is read again in every iteration. -/
def dqNormalize (md : HMeta) (osize : Nat) (q : List (UTM (Quality K))) :
    Res (List (UTM (Quality K))) := do
  let t ← vget q md.root
  let m := UTM.index t.size 0 (osize - 1)
  let _ ← vget t.data m
  forUp 0 md.hsize (fun h d => do
    let t ← vget d h
    forUp 0 t.getElements (fun i d => do
      let x ← fget d h i
      let mx ← fget d md.root m
      fset d h i (x.div mx)) d) q
end

/-- `class DQualities`: `headers/dqualities.h:19-39`. -/
structure DQualities (K : Type) where
  values : Option (DValues K)
  qualities : Option (List (UTM (Quality K)))
  md : HMeta

namespace DQualities

/-- `DQualities(qualities, metaData)`: `sources/dqualities.cpp:3-6`. -/
def ofQualities (q : List (UTM (Quality K))) (md : HMeta) : DQualities K := ⟨none, some q, md⟩

/-- `DQualities(values)`: `sources/dqualities.cpp:8-11`. -/
def ofValues (v : DValues K) : DQualities K := ⟨some v, none, v.md⟩

/-- `computeQualities()`: `sources/dqualities.cpp:23-77`. -/
def computeQualities [LDLog K] (o : DQualities K) : Res (DQualities K) :=
  match o.values with
  | none => .ok o
  | some v => do
    let q ← dqCompute v o.md
    return { o with qualities := some q }

/-- `normalize()`: `sources/dqualities.cpp:13-21`. -/
def normalize [LD K] (o : DQualities K) : Res (DQualities K) :=
  match o.qualities, o.values with
  | some q, some v =>
    if v.osize = 0 then .error .outOfBounds else do
      let q' ← dqNormalize o.md v.osize q
      return { o with qualities := some q' }
  | _, _ => .error .nullDeref

/-- `size()`: `sources/dqualities.cpp:79-82`. -/
def size (o : DQualities K) : Res Nat :=
  match o.qualities with
  | some q => .ok q.length
  | none => .error .nullDeref

end DQualities
end Lp
