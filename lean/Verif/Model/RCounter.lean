import Verif.Model.RMicro

/-!
# Cutting a trace of counters into time slices (R/lpaggreg_pjdump.R: `slicerprvcounter`, `pjdump2micro` for counters)

Simplifications as in `RSlice` and `RMicro`.  A division by zero gives `Inf` or `NaN` in R, here 0: the theorems do not consider
these cases.
-/

namespace Lp
variable {S Y K : Type} [LinearOrder S] [LinearOrder Y] [Field K] [LinearOrder K]

/-- A row of the trace: `ResourceId`, `Start`, `End`, `Duration` and the pair of `Type` and `Value`. -/
abbrev TCounter (S Y K : Type) := TState S (Y × K) K

/-- What remains of row `r` after line 90: the row with the value of the next row of its group; the last row of a group has `NA` and is
removed. -/
def leadCons (r : TCounter S Y K) : Option (TCounter S Y K) → List (TCounter S Y K) → List (TCounter S Y K)
  | some x, l => { r with value := (r.value.1, x.value.2) } :: l
  | none, l => l

/-- `group_by(ResourceId, Type) %>% mutate(Value=lead(Value)) %>% na.omit()`: `R/lpaggreg_pjdump.R:90`. -/
def leadRows : List (TCounter S Y K) → List (TCounter S Y K)
  | [] => []
  | r :: l => leadCons r (l.find? (fun x => x.resource = r.resource ∧ x.value.1 = r.value.1)) (leadRows l)

/-- `trace$Value/trace$Duration`: `R/lpaggreg_pjdump.R:92`. -/
def rates (trace : List (TCounter S Y K)) : List (TCounter S Y K) :=
  trace.map (fun r => { r with value := (r.value.1, r.value.2 / r.duration) })

/-- The second grouping: `R/lpaggreg_pjdump.R:102`. -/
def keyC (x : (TCounter S Y K × Slice K) × K) : S × Nat × Y × K × K :=
  (x.1.1.resource, x.1.2.id, x.1.1.value.1, x.1.2.tsStart, x.1.2.tsEnd)

/-- `m`, with the mean of the values weighted by the times (the field `sum` is the column `Mean`): `R/lpaggreg_pjdump.R:102-104`. -/
def weighted (h : List ((TCounter S Y K × Slice K) × K)) : List (SliceRow S Y K) :=
  (groupRows keyC h).map (fun g =>
    let mean := (g.2.map (fun x => x.1.1.value.2 * x.2)).sum / (g.2.map Prod.snd).sum
    ⟨g.1.1, g.1.2.1, g.1.2.2.1, g.1.2.2.2.1, g.1.2.2.2.2, mean, mean⟩)

/-- `group_by(Type) %>% mutate(Normalized=Normalized/sum(Normalized))`: `R/lpaggreg_pjdump.R:113`. -/
def shares (o : List (SliceRow S Y K)) : List (SliceRow S Y K) :=
  o.map (fun r => { r with normalized := r.normalized / ((o.filter (fun x => x.type = r.type)).map (fun x => x.normalized)).sum })

/-- `o` of `slicerprvcounter(trace, timeSliceNumber)`, before the last step: `R/lpaggreg_pjdump.R:84-112`.  The grouping of line 100 is
that of `timed`: the pair of `Type` and `Value` is one column. -/
def meanRows (trace : List (TCounter S Y K)) (n : Nat) : List (SliceRow S Y K) :=
  let start := rMin (trace.map (fun r => r.start))                                                       -- 86
  let trace := shiftTrace trace start                                                                    -- 87-88
  let maxts := rMax (trace.map (fun r => r.end))                                                         -- 89
  let trace := leadRows trace                                                                            -- 90
  let trace := rates trace                                                                               -- 92
  filled (weighted (timed (joined maxts trace n)))                                                       -- 93-112

/-- `slicerprvcounter(trace, timeSliceNumber)`: `R/lpaggreg_pjdump.R:84-115`. -/
def slicerprvcounter (trace : List (TCounter S Y K)) (n : Nat) : List (SliceRow S Y K) := shares (meanRows trace n)  -- 113

/-- `pjdump2micro(trace, timeSliceNumber, "Counter", enable_hierarchy)`: `R/lpaggreg_pjdump.R:147-209`; `trace` are the rows of
`trace$data` whose `Nature` is `Variable`. -/
def pjdump2microC (trace : List (TCounter S Y K)) (resources : List (Container S)) (n : Nat) (enable : Bool) :
    Res (Micro S Y K) :=
  microOf (slicerprvcounter trace n) resources enable

end Lp
