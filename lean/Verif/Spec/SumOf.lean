import Verif.Model.Complexity
import Verif.Model.Quality
import Mathlib.Data.Finset.Disjoint
import Mathlib.Data.Finset.Basic

/-!
# Specification: sums in some order, in any arithmetic

No law is assumed of the arithmetic: `SumOf f s x` says that `x` is what adding up the values of the positions `s` gives, each
used exactly once, in some order and bracketing (zeros may be added too).  `Measured` is the quality of a part built from
such sums.
-/

namespace Lp.Spec
variable {K ι : Type} [DecidableEq ι]

/-- `x` is the sum of the values `f i` for `i` in `s`, in some order and bracketing. -/
inductive SumOf [Zero K] [Add K] (f : ι → K) : Finset ι → K → Prop
  | none : SumOf f ∅ 0
  | one (i : ι) : SumOf f {i} (f i)
  | add {s t : Finset ι} {x y : K} : Disjoint s t → SumOf f s x → SumOf f t y → SumOf f (s ∪ t) (x + y)

/-- `q` is the quality of aggregating the positions `s` (`n` of them) with the first `k` series: to both components is
added, one series after another, the measure of that series, computed from a sum of the values and a sum of the `x log x`. -/
inductive Measured [LDLog K] (V : Nat → ι → K) (s : Finset ι) (n : Int) : Nat → Quality K → Prop
  | zero : Measured V s n 0 ⟨0, 0⟩
  | next {k : Nat} {q : Quality K} {S I : K} : Measured V s n k q → SumOf (V k) s S →
      SumOf (fun x => entropyReduction (V k x) 0) s I →
      Measured V s n (k + 1) ⟨q.gain + entropyReduction S I, q.loss + divergence n S I⟩

end Lp.Spec
