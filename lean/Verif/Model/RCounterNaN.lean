import Verif.Model.RCounter
import Verif.Spec.Special

/-!
# The last step of `slicerprvcounter` with R's division (R/lpaggreg_pjdump.R: `slicerprvcounter`, `pjdump2micro` for counters)

`RCounter` divides as in a field, where `0/0 = 0`.  In R it is `NaN`.  Here the shares are in `Special K`: numbers, infinities and NaN
(`Spec/Special.lean`).  The steps before are those of `RCounter`: for traces that satisfy `RightCounters` they divide by positive numbers
only.
-/

namespace Lp
variable {S Y K : Type} [LinearOrder S] [LinearOrder Y] [Field K] [LinearOrder K]

/-- `group_by(Type) %>% mutate(Normalized=Normalized/sum(Normalized))` with R's division: `R/lpaggreg_pjdump.R:113`.  The columns before
the last one are finite. -/
def sharesN (o : List (SliceRow S Y K)) : List (SliceRow S Y (Spec.Special K)) :=
  o.map (fun r => ⟨r.resource, r.slice, r.type, .num r.tsStart, .num r.tsEnd, .num r.sum,
    Spec.Special.num r.normalized / .num ((o.filter (fun x => x.type = r.type)).map (fun x => x.normalized)).sum⟩)

/-- `slicerprvcounter(trace, timeSliceNumber)`: `R/lpaggreg_pjdump.R:84-115`. -/
def slicerprvcounterN (trace : List (TCounter S Y K)) (n : Nat) : List (SliceRow S Y (Spec.Special K)) := sharesN (meanRows trace n)

/-- `pjdump2micro(trace, timeSliceNumber, "Counter", enable_hierarchy)`: `R/lpaggreg_pjdump.R:147-209`. -/
def pjdump2microN (trace : List (TCounter S Y K)) (resources : List (Container S)) (n : Nat) (enable : Bool) :
    Res (Micro S Y (Spec.Special K)) :=
  microOf (slicerprvcounterN trace n) resources enable

end Lp
