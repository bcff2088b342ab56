import Verif.Base.Res
import Mathlib.Algebra.Field.Defs
import Mathlib.Data.List.Dedup

/-!
# Macroscopic descriptions computed in R (R/lpaggreg_pjdump.R: `getpath`, `omacro`, `hmacro`)

Simplifications: R vectors and data frames are lists (a data frame is the list of its rows); numbers are exact; `aggregate` and
`sqldf` order their output, here groups come in some fixed order; names (space, type) are of any type with equality.
-/

namespace Lp

/-- `v[i]` where a single element is needed.  R counts from 1; a negative subscript selects all but one element, 0 none, and
one that is too large gives `NA`: here all of these are faults. -/
def rGet {α : Type} (v : List α) (i : Int) : Res α :=
  if 1 ≤ i then vget v (i - 1).toNat else .error .outOfBounds

/-- `v[i] = x` with `1 <= i <= length(v)`. -/
def rSet {α : Type} (v : List α) (i : Int) (x : α) : Res (List α) :=
  if 1 ≤ i then vset v (i - 1).toNat x else .error .outOfBounds

/-- The loop `while(i<=length(vhierarchy))` of `getpath`: `R/lpaggreg_pjdump.R:218-224`, with a step budget. -/
def getpathLoop (vh : List Int) : Nat → Int → Int → List Int → Res (List Int)
  | 0, _, _, _ => .error .outOfFuel
  | fuel + 1, i, h, path =>
    if i ≤ vh.length then do
      let x ← rGet path h
      let p ← rGet vh x
      if p ∈ path then getpathLoop vh fuel i (h + 1) path
      else do
        let path ← rSet path i p
        getpathLoop vh fuel (i + 1) (h + 1) path
    else return path

/-- `getpath(vhierarchy, leavesize)`: `R/lpaggreg_pjdump.R:211-226`, for `1 <= leavesize <= length(vhierarchy)`. -/
def getpath (vh : List Int) (leavesize : Nat) : Res (List Int) := do
  let path := List.replicate vh.length (-1 : Int)
  let path ← forUp 1 (leavesize + 1) (fun h (path : List Int) => rSet path (h : Int) (h : Int)) path
  getpathLoop vh (leavesize + vh.length + 1) (leavesize + 1) 1 path

/-! ## Data frames -/

/-- One row per group of rows with the same key (in the order of `dedup`). -/
def groupRows {R κ : Type} [DecidableEq κ] (key : R → κ) (rows : List R) : List (κ × List R) :=
  ((rows.map key).dedup).map (fun k => (k, rows.filter (fun r => key r = k)))

section
variable {S Y K F : Type} [DecidableEq S] [DecidableEq Y] [Field K]

/-- A row of `melt(micro$data)`, where the array is indexed by space, type and time slice. -/
structure MRow (S Y K : Type) where
  space : S
  type : Y
  time : Nat
  value : K

/-- `melt` of the array with the given names, `slices` slices (numbered from 1) and value `f (i, j, k)` at the
zero-based position `i, j, k`: first index fastest. -/
def melt (space : List S) (type : List Y) (slices : Nat) (f : Nat × Nat × Nat → K) : List (MRow S Y K) :=
  (List.range slices).flatMap fun k => (type.zipIdx).flatMap fun y => (space.zipIdx).map fun s =>
    ⟨s.1, y.1, k + 1, f (s.2, y.2, k)⟩

/-! ### `omacro` -/

/-- A row of `dfdata` in `omacro`: with the columns `Start` and `End`. -/
structure OData (S Y K : Type) where
  row : MRow S Y K
  start : Int
  «end» : Int

/-- A row of the result of `omacro`. -/
structure OMacro (S Y K : Type) where
  space : S
  type : Y
  start : Int
  «end» : Int
  value : K

/-- `mean` of a vector. -/
def rMean (l : List K) : K := l.sum / (l.length : K)

/-- `omacro(df, micro, p)`: `R/lpaggreg_pjdump.R:228-239`; `intervals` are the columns `Start`, `End` of the rows of `df` with
`Parameter` `p` (line 229; at least one row, or `1:nrow(df)` would count down from 1 to 0). -/
def omacro (intervals : List (Int × Int)) (data : List (MRow S Y K)) : List (OMacro S Y K) :=
  let dfdata : List (OData S Y K) := data.map (fun r => ⟨r, -1, -1⟩)                                           -- 231-232
  let dfdata := intervals.foldl (fun d I => d.map (fun r =>
    if I.1 ≤ (r.row.time : Int) ∧ (r.row.time : Int) ≤ I.2 then ⟨r.row, I.1, I.2⟩ else r)) dfdata                -- 233-236
  (groupRows (fun r : OData S Y K => (r.row.space, r.row.type, r.start, r.end)) dfdata).map                      -- 237
    (fun g => ⟨g.1.1, g.1.2.1, g.1.2.2.1, g.1.2.2.2, rMean (g.2.map (fun r => r.row.value))⟩)

/-! ### `hmacro` -/

/-- A row of `dfdata` in `hmacro`: with the column `Parent` (`none` for the initial value `"0"`). -/
structure HData (S Y K : Type) where
  row : MRow S Y K
  parent : Option S

/-- A row of the result of `hmacro`. -/
structure HMacro (S Y K : Type) where
  space : S
  type : Y
  time : Nat
  parent : Option S
  value : K
  size : Int

/-- One iteration of the loop over the path: `R/lpaggreg_pjdump.R:251-256`, for the node `x` (`path[h]`). -/
def hmacroStep (names : List S) (vh : List Int) (x : Int) (d : List (HData S Y K)) : Res (List (HData S Y K)) := do
  let name ← rGet names x
  let px ← rGet vh x
  let pname ← rGet names px
  let d := d.map (fun r => if r.row.space = name then ⟨r.row, some pname⟩ else r)                                -- 252
  let d2 := d.filter (fun r => r.row.space = name)                                                                -- 253
  let d2 := d2.map (fun r => (⟨{ r.row with space := pname }, r.parent⟩ : HData S Y K))                           -- 254
  return d ++ d2                                                                                                  -- 255

/-- `hmacro(df, micro, p)`: `R/lpaggreg_pjdump.R:241-263`; `names` and `vh` are `micro$hierarchy` (names and values); `nodes` are the
columns `Node`, `Size` of the rows of `df` with `Parameter` `p` (line 242; at least one). The hierarchy has at least two
nodes. -/
def hmacro (names : List S) (vh : List Int) (nodes : List (Int × Int)) (data : List (MRow S Y K)) :
    Res (List (HMacro S Y K)) := do
  let leavesize := ((data.map (fun r => r.space)).dedup).length                                                   -- 245
  let spaces ← forEach (fun (n : Int × Int) (acc : List (S × Int)) => do                                          -- 246-248
    let name ← rGet names n.1
    return acc ++ [(name, n.2)]) nodes []
  let d : List (HData S Y K) := data.map (fun r => ⟨r, none⟩)                                                     -- 249
  let path ← getpath vh leavesize                                                                                 -- 250
  let d ← forUp 1 path.length (fun h d => do                                                                      -- 251
    let x ← rGet path h
    hmacroStep names vh x d) d
  let agg := d.filter (fun r => r.row.space ∈ spaces.map Prod.fst)                                                -- 257
  let agg := groupRows (fun r : HData S Y K => (r.row.space, r.row.type, r.row.time, r.parent)) agg               -- 258
  return agg.flatMap (fun g => (spaces.filter (fun s => s.1 = g.1.1)).map (fun s =>                               -- 259-262
    ⟨g.1.1, g.1.2.1, g.1.2.2.1, g.1.2.2.2, (g.2.map (fun r => r.row.value)).sum, s.2⟩))

end
end Lp
