import Verif.Spec.Table
import Verif.Model.Values

/-!
# Specification: the data a value container holds, seen through the interface the analysis uses
-/

namespace Lp.Spec
variable {K : Type}

/-- The ordered container has `m` series of `n` values; value `i` of series `k` is `V k i`. -/
structure OData (v : OValues K) (m n : Nat) (V : Nat → Nat → K) : Prop where
  vsize : v.vsize = m
  osize : v.osize = n
  row : ∀ k, k < m → v.series k = .ok (table1 n (V k))

/-- The hierarchical container has `m` series; the value of leaf `h` in series `k` is `V k h`. -/
structure HData (v : HValues K) (m leaves : Nat) (V : Nat → Nat → K) : Prop where
  vsize : v.vsize = m
  val : ∀ k h, k < m → h < leaves → v.value h k = .ok (V k h)

/-- The spatiotemporal container has `m` series of `n` slices; the value of leaf `h`, slice `x` in series `k` is
`V k (h, x)`. -/
structure DData (v : DValues K) (m leaves n : Nat) (V : Nat → Nat × Nat → K) : Prop where
  vsize : v.vsize = m
  osize : v.osize = n
  row : ∀ k h, k < m → h < leaves → v.series h k = .ok (table1 n (fun x => V k (h, x)))

end Lp.Spec
