import Verif.Model.RSlice
import Verif.Model.RBinding
import Mathlib.Data.List.Sort

/-!
# From a trace to micro data and a hierarchy (R/lpaggreg_pjdump.R: `pjdump2micro` for states)

Simplifications as in `RMacro`; names of resources and types have some linear order (that of R's `order`); `NA` is a fault; a
vector of length 0 or more than 1 where R needs one element is a fault or, when R only warns, its first element.
-/

namespace Lp
variable {S Y K : Type} [LinearOrder S] [LinearOrder Y]

/-- A row of `trace$resources`: `R/lpaggreg_pjdump.R:132-143`. -/
structure Container (S : Type) where
  parent : S
  resource : S
  deriving DecidableEq, Repr

/-- `unique(x)` then `x[order(x)]`. -/
def rSortUnique {α : Type} [LinearOrder α] (l : List α) : List α := l.dedup.insertionSort (· ≤ ·)

/-- `unique(x)`: first occurrences. -/
def rUnique {α : Type} [DecidableEq α] (l : List α) : List α := l.reverse.dedup.reverse

/-- `match(x, table)`: the position (from 1) of the first occurrence. -/
def rMatch {α : Type} [DecidableEq α] (x : α) (table : List α) : Option Nat := (table.idxOf? x).map (· + 1)

/-- The result of `pjdump2micro`: the array with its dimnames, and the hierarchy with its names. -/
structure Micro (S Y K : Type) where
  space : List S
  type : List Y
  time : List Nat
  data : RArray K
  names : List S
  hierarchy : List Int

/-- One turn of the loop that sets the column `ParentIndex`; `none` is `NA`: `R/lpaggreg_pjdump.R:187`. -/
def setParentIndex (hierarchy : List S) (t : List (Container S × Option Int)) (x : S) : List (Container S × Option Int) :=
  let sel := t.filter (fun r => r.1.resource = x)
  let idx : Option Int := sel.head?.bind (fun r => (rMatch r.1.parent hierarchy).map (fun i : Nat => (i : Int)))
  t.map (fun r => if r.1.resource = x then (r.1, idx) else r)

/-- `resources[1,"ParentIndex"]=0`: `R/lpaggreg_pjdump.R:189`. -/
def setFirst (t : List (Container S × Option Int)) : List (Container S × Option Int) :=
  match t with
  | [] => []
  | r :: t => (r.1, some 0) :: t

/-- `resources[resources$ResourceId %in% x, "ParentIndex"]`, one element: `R/lpaggreg_pjdump.R:191`. -/
def getParentIndex (t : List (Container S × Option Int)) (x : S) : Res Int :=
  match (t.filter (fun r => r.1.resource = x)).head? with
  | some (_, some i) => .ok i
  | _ => .error .outOfBounds

/-- The vector `vhierarchy`: `R/lpaggreg_pjdump.R:179-192`. -/
def hierarchyOf (resources : List (Container S)) (space parents : List S) : Res (List S × List Int) := do
  let hierarchy := rUnique (space ++ parents)                                                          -- 179-180
  let table : List (Container S × Option Int) := resources.map (fun c => (c, some (-1)))               -- 182
  let table := hierarchy.foldl (setParentIndex hierarchy) table                                        -- 186-188
  let table := setFirst table                                                                          -- 189
  let vh ← forEach (fun x (acc : List Int) => do                                                       -- 190-192
    let i ← getParentIndex table x
    return acc ++ [i]) hierarchy []
  return (hierarchy, vh)

/-- `dataCube[i, j, k] <- x`, by names. -/
def cubeAssign (space : List S) (type : List Y) (time : List Nat) (a : RArray K) (s : S) (y : Y) (t : Nat) (x : K) : Res (RArray K) :=
  match space.idxOf? s, type.idxOf? y, time.idxOf? t with
  | some i, some j, some k => do
    let mem ← vset a.mem (i + j * a.d0 + k * (a.d0 * a.d1)) x
    return { a with mem := mem }
  | _, _, _ => .error .outOfBounds

/-- `pjdump2micro(trace, timeSliceNumber, type, enable_hierarchy)` from the rows `df` of the slices on: `R/lpaggreg_pjdump.R:158-208`. -/
def microOf [Zero K] (df : List (SliceRow S Y K)) (resources : List (Container S)) (enable : Bool) : Res (Micro S Y K) := do
  let time := rSortUnique (df.map (fun r => r.slice))                                                  -- 158-159
  let type := rSortUnique (df.map (fun r => r.type))                                                   -- 161-162
  let parents := (rSortUnique (resources.map (fun c => c.parent))).reverse                             -- 165-169
  let df := if enable then df.filter (fun r => r.resource ∉ parents) else df                           -- 172
  let space := rSortUnique (df.map (fun r => r.resource))                                              -- 175-176
  let (names, vh) ← if enable then hierarchyOf resources space parents else .ok ([], [0])              -- 178-195
  let cube : RArray K := ⟨space.length, type.length, time.length,                                      -- 197-200
    List.replicate (space.length * type.length * time.length) 0⟩
  let cube ← forEach (fun (r : SliceRow S Y K) a =>                                                    -- 202-205
    cubeAssign space type time a r.resource r.type r.slice r.normalized) df cube
  return ⟨space, type, time, cube, names, vh⟩

/-- `pjdump2micro(trace, timeSliceNumber, "State", enable_hierarchy)`: `R/lpaggreg_pjdump.R:147-209`; `trace` are the rows of
`trace$data` whose `Nature` is `State`. -/
def pjdump2micro [Field K] [LinearOrder K] (trace : List (TState S Y K)) (resources : List (Container S)) (n : Nat) (enable : Bool) :
    Res (Micro S Y K) :=
  microOf (slicerstate trace n) resources enable

end Lp
