import Verif.Model.Values
import Verif.Model.Quality
import Verif.Model.UTM
import Verif.Model.Complexity

/-!
# `OQualities` (sources/oqualities.cpp)
-/

namespace Lp
variable {K : Type}

/-- Working matrices of `computeQualities`: `sources/oqualities.cpp:28-30`. -/
structure OSt (K : Type) where
  sum : UTM K
  info : UTM K
  q : UTM (Quality K)

section
variable [LDLog K]

/-- Body of the `j` loop: `sources/oqualities.cpp:36-39`. -/
def oqCell (i j : Nat) (s : OSt K) : Res (OSt K) := do
  let a ← s.sum.get (i + 1) j
  let b ← s.sum.get i i
  let sum ← s.sum.set i j (a + b)
  let c ← s.info.get (i + 1) j
  let d ← s.info.get i i
  let info ← s.info.set i j (c + d)
  let sij ← sum.get i j
  let iij ← info.get i j
  let q0 ← s.q.get i j
  let q ← s.q.set i j (q0.addToGain (entropyReduction sij iij))
  let q1 ← q.get i j
  let q ← q.set i j (q1.addToLoss (divergence ((j : Int) - i + 1) sij iij))
  return ⟨sum, info, q⟩

/-- Body of the `i` loop: `sources/oqualities.cpp:33-40`. -/
def oqRow (v : OValues K) (k i : Nat) (s : OSt K) : Res (OSt K) := do
  let row ← v.series k
  let x ← vget row i
  let sum ← s.sum.set i i x
  let info ← s.info.set i i (entropyReduction x 0)
  forUp (i + 1) v.osize (fun j s => oqCell i j s) ⟨sum, info, s.q⟩

/-- The three nested loops: `sources/oqualities.cpp:26-42`. -/
def oqCompute (v : OValues K) : Res (UTM (Quality K)) := do
  let s ← forUp 0 v.vsize (fun k s => forDown v.osize (fun i s => oqRow v k i s) s)
    ⟨UTM.mk' v.osize 0, UTM.mk' v.osize 0, UTM.mk' v.osize Quality.zero⟩
  return s.q
end

section
variable [LD K]

/-- `normalize`: `sources/oqualities.cpp:13-19`.  `max` points to cell `(0, osize-1)` of the table that the loop
overwrites, so it is read again in every iteration.  The division is IEEE division (no fault for 0). -/
def oqNormalize (osize : Nat) (q : UTM (Quality K)) : Res (UTM (Quality K)) := do
  let m := UTM.index q.size 0 (osize - 1)
  let _ ← vget q.data m          -- `shared_ptr max` is copied here; fault if out of range
  let d ← forUp 0 q.getElements (fun i d => do
    let x ← vget d i
    let mx ← vget d m
    vset d i (x.div mx)) q.data
  return { q with data := d }
end

/-- `class OQualities`: `headers/oqualities.h:18-34`; a null `shared_ptr` is `none`. -/
structure OQualities (K : Type) where
  values : Option (OValues K)
  qualities : Option (UTM (Quality K))

namespace OQualities

/-- `OQualities(oqualities)`: `sources/oqualities.cpp:3-6`. -/
def ofQualities (q : UTM (Quality K)) : OQualities K := ⟨none, some q⟩

/-- `OQualities(values)`: `sources/oqualities.cpp:8-11`. -/
def ofValues (v : OValues K) : OQualities K := ⟨some v, none⟩

/-- `computeQualities()`: `sources/oqualities.cpp:21-43`. -/
def computeQualities [LDLog K] (o : OQualities K) : Res (OQualities K) :=
  match o.values with
  | none => .ok o
  | some v => do
    let q ← oqCompute v
    return ⟨some v, some q⟩

/-- `normalize()`: `sources/oqualities.cpp:13-19`: dereferences both `qualities` and `values`. For `osize = 0`
the cell `(0, osize-1)` does not exist: `osize-1` wraps and the access is out of range. -/
def normalize [LD K] (o : OQualities K) : Res (OQualities K) :=
  match o.qualities, o.values with
  | some q, some v =>
    if v.osize = 0 then .error .outOfBounds else do
      let q' ← oqNormalize v.osize q
      return ⟨some v, some q'⟩
  | _, _ => .error .nullDeref

/-- `size()`: `sources/oqualities.cpp:45-48`. -/
def size (o : OQualities K) : Res Nat :=
  match o.qualities with
  | some q => .ok q.size
  | none => .error .nullDeref

end OQualities
end Lp
