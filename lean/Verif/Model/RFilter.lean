import Verif.Model.RCounter

/-!
# Filtering a trace before it is cut into slices (R/example_cholesky.R, R/example_alya_counter.R, R/example.R)

The scripts filter all rows of `trace$data`; `pjdump2micro` then keeps those of one `Nature`.  Here the rows of that nature are filtered:
the two filters commute.
-/

namespace Lp
variable {S Y K : Type} [DecidableEq Y]

/-- `trace$data[!(trace$data$Value %in% hide),]` for states: `R/example_cholesky.R:14`, `R/example.R:57`. -/
def hideStates (hide : List Y) (trace : List (TState S Y K)) : List (TState S Y K) :=
  trace.filter (fun r => !(decide (r.value ∈ hide)))

/-- `trace$data[(trace$data$Type %in% keep),]` for counters: `R/example_alya_counter.R:14`, `R/example.R:79`. -/
def keepTypes (keep : List Y) (trace : List (TCounter S Y K)) : List (TCounter S Y K) :=
  trace.filter (fun r => decide (r.value.1 ∈ keep))

end Lp
