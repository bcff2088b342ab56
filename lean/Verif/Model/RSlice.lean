import Verif.Model.RMacro
import Mathlib.Algebra.Order.Field.Basic
import Mathlib.Order.MinMax

/-!
# Cutting a trace into time slices (R/lpaggreg_pjdump.R: `slicerstate`)

Simplifications as in `RMacro`; the trace has at least one row (of an empty vector R's `min` and `max` are infinite).
-/

namespace Lp
variable {S Y K : Type} [DecidableEq S] [DecidableEq Y] [Field K] [LinearOrder K]

/-- A row of the trace: `ResourceId`, `Start`, `End`, `Duration`, `Value`. -/
structure TState (S Y K : Type) where
  resource : S
  start : K
  «end» : K
  duration : K
  value : Y

/-- `min` of a vector. -/
def rMin : List K → K
  | [] => 0
  | x :: l => l.foldl min x

/-- `max` of a vector. -/
def rMax : List K → K
  | [] => 0
  | x :: l => l.foldl max x

/-- A row of `slices`: `R/lpaggreg_pjdump.R:61`. -/
structure Slice (K : Type) where
  id : Nat
  tsStart : K
  tsEnd : K

/-- A row of `m` and of the result: `R/lpaggreg_pjdump.R:67-70`, `:78-79`. -/
structure SliceRow (S Y K : Type) where
  resource : S
  slice : Nat
  type : Y
  tsStart : K
  tsEnd : K
  sum : K
  normalized : K

/-- `slices`: `R/lpaggreg_pjdump.R:60-61`. -/
def slicesOf (maxts : K) (n : Nat) : List (Slice K) :=
  let slicets := maxts / (n : K)
  (List.range n).map (fun i => ⟨i + 1, (i : K) * slicets, ((i : K) + 1) * slicets⟩)

/-- The times counted from `start`: `R/lpaggreg_pjdump.R:57-58`, `:87-88`. -/
def shiftTrace (trace : List (TState S Y K)) (start : K) : List (TState S Y K) :=
  trace.map (fun r => { r with start := r.start - start, «end» := r.end - start })

/-- The join with the slices: `R/lpaggreg_pjdump.R:62-65`, `:95-98`. -/
def joined (maxts : K) (trace : List (TState S Y K)) (n : Nat) : List (TState S Y K × Slice K) :=
  trace.flatMap (fun r => ((slicesOf maxts n).filter (fun s =>
    s.tsStart < r.start + r.duration ∧ r.end - r.duration < s.tsEnd)).map (fun s => (r, s)))

/-- The first grouping: `R/lpaggreg_pjdump.R:67`. -/
def key1 (x : TState S Y K × Slice K) : S × K × K × Nat × Y := (x.1.resource, x.1.start, x.1.end, x.2.id, x.1.value)

/-- The column `TinTS`: `R/lpaggreg_pjdump.R:67-68`. -/
def timed (h : List (TState S Y K × Slice K)) : List ((TState S Y K × Slice K) × K) :=
  h.map (fun x =>
    let g := h.filter (fun y => key1 y = key1 x)
    (x, rMin (g.map (fun y => y.1.end) ++ g.map (fun y => y.2.tsEnd)) -
      rMax (g.map (fun y => y.1.start) ++ g.map (fun y => y.2.tsStart))))

/-- The second grouping: `R/lpaggreg_pjdump.R:69`. -/
def key2 (x : (TState S Y K × Slice K) × K) : S × Nat × Y × K × K :=
  (x.1.1.resource, x.1.2.id, x.1.1.value, x.1.2.tsStart, x.1.2.tsEnd)

/-- `m`: `R/lpaggreg_pjdump.R:69-71`. -/
def summed (maxts : K) (h : List ((TState S Y K × Slice K) × K)) : List (SliceRow S Y K) :=
  (groupRows key2 h).map (fun g =>
    let sum := (g.2.map Prod.snd).sum
    ⟨g.1.1, g.1.2.1, g.1.2.2.1, g.1.2.2.2.1, g.1.2.2.2.2, sum, sum / maxts⟩)

/-- `max(m$SliceId)`. -/
def lastOf (m : List (SliceRow S Y K)) : Nat := (m.map (fun r => r.slice)).foldl max 0

/-- `p`, a row of zeros for each resource, slice and type: `R/lpaggreg_pjdump.R:72-76`, `:105-109`. -/
def gridOf (m : List (SliceRow S Y K)) : List (SliceRow S Y K) :=
  ((m.map (fun r => r.resource)).dedup).flatMap (fun s => (List.range (lastOf m)).flatMap (fun k =>
    ((m.map (fun r => r.type)).dedup).map (fun y => (⟨s, k + 1, y, 0, 0, 0, 0⟩ : SliceRow S Y K))))

/-- The last grouping: `R/lpaggreg_pjdump.R:78`, `:111`. -/
def key3 (r : SliceRow S Y K) : S × Nat × Y := (r.resource, r.slice, r.type)

/-- `o`: `R/lpaggreg_pjdump.R:77-79`, `:110-112`. -/
def filled (m : List (SliceRow S Y K)) : List (SliceRow S Y K) :=
  (groupRows key3 (gridOf m ++ m)).map (fun g =>
    ⟨g.1.1, g.1.2.1, g.1.2.2, rMax (g.2.map (fun r => r.tsStart)), rMax (g.2.map (fun r => r.tsEnd)),
      rMax (g.2.map (fun r => r.sum)), rMax (g.2.map (fun r => r.normalized))⟩)

/-- `slicerstate(trace, timeSliceNumber)`: `R/lpaggreg_pjdump.R:53-81`. -/
def slicerstate (trace : List (TState S Y K)) (n : Nat) : List (SliceRow S Y K) :=
  let start := rMin (trace.map (fun r => r.start))                                                       -- 56
  let trace := shiftTrace trace start                                                                    -- 57-58
  let maxts := rMax (trace.map (fun r => r.end))                                                         -- 59
  filled (summed maxts (timed (joined maxts trace n)))                                                   -- 60-79

end Lp
