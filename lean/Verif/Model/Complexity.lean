import Verif.Base.Num

/-!
# Information measures (sources/complexity.cpp)
-/

namespace Lp
variable {K : Type} [LDLog K]

/-- `ln = log(2.0)`: `headers/complexity.h:47`. -/
def ln2 : K := LDLog.ln

/-- `entropy(val)`: `sources/complexity.cpp:38-40`. -/
def entropy (val : K) : K := val * LDLog.log val / ln2

/-- `entropyReduction(val, ent)`: `sources/complexity.cpp:42-47`. -/
def entropyReduction (val ent : K) : K := if 0 < val then entropy val - ent else 0

/-- `divergence(size, value, ent)`: `sources/complexity.cpp:49-51`. -/
def divergence (size : Int) (value ent : K) : K :=
  value * LDLog.logInt size / ln2 - entropyReduction value ent

end Lp
