import Verif.Base.Res

/-!
# `HValuesMetaData` (sources/hvalues.cpp)
-/

namespace Lp

/-- `class HValuesMetaData`: `headers/hvalues.h:15-45`.  `map<int,int> size` is a partial function; node numbers
are `Nat` (a negative or too large parent number makes the constructor access `children` out of range in the
same iteration, `sources/hvalues.cpp:30`, so it never gets into `path`). -/
structure HMeta where
  hsize : Nat
  leaveSize : Nat
  parents : List Int
  children : List (List Nat)
  size : Nat → Option Nat
  path : List Nat
  root : Nat

/-- State of the loop of `setPath`. -/
structure PathSt where
  path : List Nat
  children : List (List Nat)
  size : Nat → Option Nat

/-- Update of a `map`. -/
def mapUpd {β : Type} (m : Nat → Option β) (k : Nat) (v : β) : Nat → Option β :=
  fun x => if x = k then some v else m x

/-- Initialisation, `sources/hvalues.cpp:15-22`. -/
def pathInit (leaveSize hsize : Nat) : PathSt where
  path := List.range leaveSize
  children := List.replicate (max leaveSize hsize) []
  size := fun h => if h < leaveSize then some 1 else none

/-- One iteration of the loop at `sources/hvalues.cpp:23-31` for node `x = path[i]` with parent number `px`. -/
def pathStep (x px : Nat) (st : PathSt) : Res PathSt :=
  let sx := (st.size x).getD 0          -- `size[path[i]]`
  let st1 : PathSt := match st.size px with
    | some s => { st with size := mapUpd st.size px (s + sx) }                                -- line 25
    | none => { st with path := st.path ++ [px], size := mapUpd st.size px sx }                -- lines 27-28
  match vget st1.children px with                                                              -- line 30
  | .error e => .error e
  | .ok ch => .ok { st1 with children := st1.children.set px (ch ++ [x]) }

/-- The loop `for (int i=0; parents[path[i]]!=-1; i++)`, `sources/hvalues.cpp:23-31`, with a step budget. -/
def pathLoop (parents : List Int) : Nat → Nat → PathSt → Res PathSt
  | 0, _, _ => .error .outOfFuel
  | fuel + 1, i, st => do
    let x ← vget st.path i
    let p ← vget parents x
    if p = -1 then return st else
      let px ← toIdx p
      let st' ← pathStep x px st
      pathLoop parents fuel (i + 1) st'

/-- `HValuesMetaData(leaveSize, parents)`: `sources/hvalues.cpp:88-92` with `setPath`, `:13-33`.
The step budget is the number of nodes plus one; `C04` proves that it is never exhausted. -/
def mkMeta (leaveSize : Nat) (parents : List Int) : Res HMeta := do
  let st ← pathLoop parents (leaveSize + parents.length + 1) 0 (pathInit leaveSize parents.length)
  let root ← vget st.path (st.path.length - 1)                                                 -- line 32
  return { hsize := parents.length, leaveSize, parents, children := st.children, size := st.size,
           path := st.path, root }

/-- `(metaData.getParents())[h]` used as an index. -/
def HMeta.parentOf (md : HMeta) (h : Nat) : Res Nat := do
  let p ← vget md.parents h
  toIdx p

/-- `(metaData.getSize())[h]` on the copy of the map: 0 for a missing key. -/
def HMeta.sizeOf (md : HMeta) (h : Nat) : Nat := (md.size h).getD 0

end Lp
