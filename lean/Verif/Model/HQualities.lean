import Verif.Model.Values
import Verif.Model.Quality
import Verif.Model.Complexity

/-!
# `HQualities` (sources/hqualities.cpp)
-/

namespace Lp
variable {K : Type}

/-- Working vectors of `computeQualities`: `sources/hqualities.cpp:29-37`. -/
structure HSt (K : Type) where
  sum : List K
  info : List K
  q : List (Quality K)

section
variable [LDLog K]

/-- `v[i] += x`. -/
def vaddTo {K : Type} [Add K] (v : List K) (i : Nat) (x : K) : Res (List K) := do
  let a ← vget v i
  vset v i (a + x)

/-- Body of the first loop (leaves): `sources/hqualities.cpp:39-42`. -/
def hqLeaf (v : HValues K) (md : HMeta) (k i : Nat) (s : HSt K) : Res (HSt K) := do
  let h ← vget md.path i
  let x ← v.value h k
  let sum ← vset s.sum h x
  let p ← md.parentOf h
  let sum ← vaddTo sum p x
  let info ← vset s.info h (entropyReduction x 0)
  let info ← vaddTo info p (entropyReduction x 0)
  return ⟨sum, info, s.q⟩

/-- `addToGain` and `addToLoss` for node `h`: `sources/hqualities.cpp:47-48`, `:50-51`. -/
def hqAdd (md : HMeta) (h : Nat) (s : HSt K) : Res (HSt K) := do
  let sh ← vget s.sum h
  let ih ← vget s.info h
  let q0 ← vget s.q h
  let q ← vset s.q h ((q0.addToGain (entropyReduction sh ih)).addToLoss (divergence (md.sizeOf h) sh ih))
  return { s with q := q }

/-- Body of the second loop (inner nodes): `sources/hqualities.cpp:45-48`. -/
def hqInner (md : HMeta) (i : Nat) (s : HSt K) : Res (HSt K) := do
  let h ← vget md.path i
  let p ← md.parentOf h
  let sh ← vget s.sum h
  let sum ← vaddTo s.sum p sh
  let ih ← vget s.info h
  let info ← vaddTo s.info p ih
  hqAdd md h ⟨sum, info, s.q⟩

/-- One series: `sources/hqualities.cpp:34-51`. -/
def hqSeries (v : HValues K) (md : HMeta) (k : Nat) (q : List (Quality K)) : Res (List (Quality K)) := do
  let s ← forUp 0 md.leaveSize (fun i s => hqLeaf v md k i s)
    ⟨List.replicate md.hsize 0, List.replicate md.hsize 0, q⟩
  let _ ← vget md.path md.leaveSize                 -- `h = path[++i]` when leaving the first loop
  let s ← forUp md.leaveSize (md.hsize - 1) (fun i s => hqInner md i s) s
  let h ← vget md.path (max md.leaveSize (md.hsize - 1))
  let s ← hqAdd md h s
  return s.q

/-- `computeQualities` for an object with values: `sources/hqualities.cpp:27-52`. -/
def hqCompute (v : HValues K) (md : HMeta) : Res (List (Quality K)) :=
  forUp 0 v.vsize (fun k q => hqSeries v md k q) (List.replicate md.hsize Quality.zero)
end

section
variable [LD K]

/-- `normalize`: `sources/hqualities.cpp:14-20`; `max` points into the vector that the loop overwrites. -/
def hqNormalize (md : HMeta) (q : List (Quality K)) : Res (List (Quality K)) := do
  let _ ← vget q md.root
  forUp 0 q.length (fun i d => do
    let x ← vget d i
    let mx ← vget d md.root
    vset d i (x.div mx)) q
end

/-- `class HQualities`: `headers/hqualities.h:17-37`. -/
structure HQualities (K : Type) where
  values : Option (HValues K)
  qualities : Option (List (Quality K))
  md : HMeta

namespace HQualities

/-- `HQualities(qualities, metaData)`: `sources/hqualities.cpp:4-7`. -/
def ofQualities (q : List (Quality K)) (md : HMeta) : HQualities K := ⟨none, some q, md⟩

/-- `HQualities(values)`: `sources/hqualities.cpp:9-12`. -/
def ofValues (v : HValues K) : HQualities K := ⟨some v, none, v.md⟩

/-- `computeQualities()`: `sources/hqualities.cpp:22-53`. -/
def computeQualities [LDLog K] (o : HQualities K) : Res (HQualities K) :=
  match o.values with
  | none => .ok o
  | some v => do
    let q ← hqCompute v o.md
    return { o with qualities := some q }

/-- `normalize()`: `sources/hqualities.cpp:14-20`. -/
def normalize [LD K] (o : HQualities K) : Res (HQualities K) :=
  match o.qualities with
  | some q => do
    let q' ← hqNormalize o.md q
    return { o with qualities := some q' }
  | none => .error .nullDeref

/-- `size()`: `sources/hqualities.cpp:55-58`. -/
def size (o : HQualities K) : Res Nat :=
  match o.qualities with
  | some q => .ok q.length
  | none => .error .nullDeref

end HQualities
end Lp
