import Verif.Model.RCounter

/-!
# Reading a dump (R/lpaggreg_pjdump.R: `parsepjdump`)

The file is a list of lines; `read.table` has already cut each line at the commas (a line has at most 15 fields, without quotes and
comment signs).  Fields have a type `N` of texts with some linear order (that of R's `order`); `num` reads a text as a number,
`blank` is the empty text.  Only the first field is given as a `Nature`.
As in R before 4.0, a column is numeric if every field in it is blank or a number, and a factor otherwise (columns of logical
values and the text `NA` are not considered).  The names in a numeric column are the texts `fmt x`; the order of texts is not
specified, so it may be that of the numbers for them.
-/

namespace Lp
variable {N K : Type} [LinearOrder N] [Field K] [LinearOrder K]

/-- The first field of a line: `R/lpaggreg_pjdump.R:132`, `:144`, `:151`, `:154`. -/
inductive Nature
  | container | state | variable | other
  deriving DecidableEq, Repr

/-- A line: the nature and the fields after it. -/
structure Line (N : Type) where
  nature : Nature
  fields : List N
  deriving DecidableEq, Repr

/-- How R reads texts: numbers, their text, and the empty text. -/
structure Texts (N K : Type) where
  num : N → Option K
  fmt : K → N
  blank : N

/-- A field, missing ones filled (`fill=TRUE`): `R/lpaggreg_pjdump.R:120`. -/
def Line.field (T : Texts N K) (l : Line N) (k : Nat) : N := l.fields.getD k T.blank

/-- A column of a data frame; `none` is `NA`. -/
inductive RCol (N K : Type)
  | num (c : List (Option K))
  | fac (c : List (Option N))
  deriving DecidableEq, Repr

/-- One field of a numeric column. -/
def readNum (T : Texts N K) (x : N) : Option K := if x = T.blank then none else T.num x

/-- The kind of a column as `read.table` chooses it: `R/lpaggreg_pjdump.R:120`. -/
def readCol (T : Texts N K) (c : List N) : RCol N K :=
  if ∀ x ∈ c, x = T.blank ∨ (T.num x).isSome then .num (c.map (readNum T)) else .fac (c.map some)

/-- The columns of `trace` that are kept: `R/lpaggreg_pjdump.R:119`, `:123-129`. -/
structure Frame (N K : Type) where
  nature : List Nature
  resource : RCol N K
  type : RCol N K
  start : RCol N K
  «end» : RCol N K
  duration : RCol N K
  depth : RCol N K
  value : RCol N K

/-- `read.table`: `R/lpaggreg_pjdump.R:119-120`. -/
def readTable (T : Texts N K) (lines : List (Line N)) : Frame N K where
  nature := lines.map (·.nature)
  resource := readCol T (lines.map (·.field T 0))
  type := readCol T (lines.map (·.field T 1))
  start := readCol T (lines.map (·.field T 2))
  «end» := readCol T (lines.map (·.field T 3))
  duration := readCol T (lines.map (·.field T 4))
  depth := readCol T (lines.map (·.field T 5))
  value := readCol T (lines.map (·.field T 6))

/-- The elements of a column at the rows of nature `k`. -/
def selectRows {α : Type} (nature : List Nature) (k : Nature) (c : List α) : List α :=
  ((nature.zip c).filter (fun x => x.1 = k)).map Prod.snd

/-- `numeric(0)[v]` for a numeric vector `v`, as a replacement for as many elements (all `NA`): positions that truncate to 0 are
dropped, negative ones select nothing and may not be mixed with others, and the length must divide the number of elements to be
replaced. -/
def emptyIndex (v : List (Option K)) : Res (List (Option K)) :=
  let kept := v.filter (fun x => x.all (fun y => 1 ≤ |y|))
  if v = [] then .ok []
  else if kept.any (fun x => x.any (fun y => y < 0)) || kept.length = 0 || v.length % kept.length ≠ 0 then .error .outOfBounds
  else .ok (v.map (fun _ => none))

/-- `as.numeric(levels(d))[d]` for `d = trace[trace$Nature %in% 'Variable',"Depth"]`: `R/lpaggreg_pjdump.R:122`. -/
def depthNumbers (T : Texts N K) (nature : List Nature) (depth : RCol N K) : Res (List (Option K)) :=
  match depth with
  | .fac c => .ok ((selectRows nature .variable c).map (fun x => x.bind (readNum T)))
  | .num c => emptyIndex (selectRows nature .variable c)

/-- Replace the elements of a column at the rows of nature `k`, in order. -/
def replaceAt {α : Type} (k : Nature) : List Nature → List α → List α → List α
  | m :: ms, x :: xs, v =>
    if m = k then (match v with | y :: vs => y :: replaceAt k ms xs vs | [] => x :: replaceAt k ms xs [])
    else x :: replaceAt k ms xs v
  | _, xs, _ => xs

/-- A number put into a factor: the level with its text, or `NA`. -/
def intoFactor (T : Texts N K) (levels : List (Option N)) (x : Option K) : Option N :=
  x.bind (fun y => if some (T.fmt y) ∈ levels then some (T.fmt y) else none)

/-- `trace[trace$Nature %in% 'Variable', "Value"] <- ...`: `R/lpaggreg_pjdump.R:122`. -/
def setValues (T : Texts N K) (f : Frame N K) : Res (Frame N K) := do
  let v ← depthNumbers T f.nature f.depth
  match f.value with
  | .num c => return { f with value := .num (replaceAt .variable f.nature c v) }
  | .fac c => return { f with value := .fac (replaceAt .variable f.nature c (v.map (intoFactor T c))) }

/-- The names in a column; `NA` is a fault. -/
def RCol.names (T : Texts N K) (c : RCol N K) : List (Res N) :=
  match c with
  | .fac c => c.map (fun x => x.elim (.error .outOfBounds) .ok)
  | .num c => c.map (fun x => x.elim (.error .outOfBounds) (fun y => .ok (T.fmt y)))

/-- The numbers in a column; `NA` and arithmetic on a factor are faults. -/
def RCol.numbers (c : RCol N K) : List (Res K) :=
  match c with
  | .num c => c.map (fun x => x.elim (.error .outOfBounds) .ok)
  | .fac c => c.map (fun _ => .error .outOfBounds)

/-- The result of `parsepjdump`: `trace$data` (with the rows of containers still in it, which no function selects) and
`trace$resources`. -/
structure Dump (N K : Type) where
  data : Frame N K
  resources : List (Container N)

/-- The list of results, if all of them are. -/
def allOk {α : Type} (l : List (Res α)) : Res (List α) := forEach (fun x (acc : List α) => do let y ← x; return acc ++ [y]) l []

/-- `resources`: `R/lpaggreg_pjdump.R:132-142`. -/
def resourcesOf (T : Texts N K) (f : Frame N K) : Res (List (Container N)) := do
  let p ← allOk (selectRows f.nature .container (f.resource.names T))
  let r ← allOk (selectRows f.nature .container (f.depth.names T))
  return (p.zip r).map (fun x => ⟨x.1, x.2⟩)

/-- `parsepjdump(file)`: `R/lpaggreg_pjdump.R:117-146`. -/
def parsepjdump (T : Texts N K) (lines : List (Line N)) : Res (Dump N K) := do
  let f ← setValues T (readTable T lines)
  let r ← resourcesOf T f
  return ⟨f, r⟩

/-- The rows of nature `State` as `slicerstate` uses them: `R/lpaggreg_pjdump.R:151`, `:55-62`. -/
def Dump.states (T : Texts N K) (d : Dump N K) : Res (List (TState N N K)) := do
  let s ← allOk (selectRows d.data.nature .state (d.data.resource.names T))
  let a ← allOk (selectRows d.data.nature .state d.data.start.numbers)
  let b ← allOk (selectRows d.data.nature .state d.data.end.numbers)
  let c ← allOk (selectRows d.data.nature .state d.data.duration.numbers)
  let v ← allOk (selectRows d.data.nature .state (d.data.value.names T))
  return (s.zip (a.zip (b.zip (c.zip v)))).map (fun x => ⟨x.1, x.2.1, x.2.2.1, x.2.2.2.1, x.2.2.2.2⟩)

/-- The rows of nature `Variable` as `slicerprvcounter` uses them: `R/lpaggreg_pjdump.R:154`, `:86-92`. -/
def Dump.counters (T : Texts N K) (d : Dump N K) : Res (List (TCounter N N K)) := do
  let s ← allOk (selectRows d.data.nature .variable (d.data.resource.names T))
  let y ← allOk (selectRows d.data.nature .variable (d.data.type.names T))
  let a ← allOk (selectRows d.data.nature .variable d.data.start.numbers)
  let b ← allOk (selectRows d.data.nature .variable d.data.end.numbers)
  let c ← allOk (selectRows d.data.nature .variable d.data.duration.numbers)
  let v ← allOk (selectRows d.data.nature .variable d.data.value.numbers)
  return (s.zip (a.zip (b.zip (c.zip (y.zip v))))).map (fun x => ⟨x.1, x.2.1, x.2.2.1, x.2.2.2.1, x.2.2.2.2⟩)

/-- `pjdump2micro(parsepjdump(file), n, "State", enable)`. -/
def fileStates (T : Texts N K) (lines : List (Line N)) (n : Nat) (enable : Bool) : Res (Micro N N K) := do
  let d ← parsepjdump T lines
  let t ← d.states T
  pjdump2micro t d.resources n enable

/-- `pjdump2micro(parsepjdump(file), n, "Counter", enable)`. -/
def fileCounters (T : Texts N K) (lines : List (Line N)) (n : Nat) (enable : Bool) : Res (Micro N N K) := do
  let d ← parsepjdump T lines
  let t ← d.counters T
  pjdump2microC t d.resources n enable

end Lp
