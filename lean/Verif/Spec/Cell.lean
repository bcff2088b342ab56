import Verif.Model.RMicro

/-!
# Specification: the cells of the array made by `pjdump2micro`, by their names
-/

namespace Lp.Spec

/-- The cell of resource `s`, type `y` and slice `t` is `x` (first index fastest). -/
def Cell {S Y K : Type} (m : Micro S Y K) (s : S) (y : Y) (t : Nat) (x : K) : Prop :=
  ∃ i j k : Nat, m.space[i]? = some s ∧ m.type[j]? = some y ∧ m.time[k]? = some t ∧
    m.data.mem[i + j * m.space.length + k * (m.space.length * m.type.length)]? = some x

/-- The state `r` cut at time `t`: its first part. -/
def before {S Y K : Type} [Sub K] (r : TState S Y K) (t : K) : TState S Y K := { r with «end» := t, duration := t - r.start }

/-- The state `r` cut at time `t`: its second part. -/
def after {S Y K : Type} [Sub K] (r : TState S Y K) (t : K) : TState S Y K := { r with start := t, duration := r.end - t }

end Lp.Spec
