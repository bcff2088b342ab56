import Verif.Model.OQualities
import Verif.Model.HQualities
import Verif.Model.DQualities

/-!
# Histories of calls on one qualities object
(public functions of `headers/qualities.h`, `headers/oqualities.h`, `headers/hqualities.h`, `headers/dqualities.h`)
-/

namespace Lp
variable {K : Type} [LDLog K]

/-- A modifying call on a qualities object: `computeQualities()` or `normalize()`. -/
inductive QCall
  | compute
  | normalize
  deriving DecidableEq, Repr

/-- The call on an ordered qualities object (`sources/oqualities.cpp:13-43`). -/
def QCall.runO : QCall → OQualities K → Res (OQualities K)
  | .compute, o => o.computeQualities
  | .normalize, o => o.normalize

/-- The call on a hierarchical qualities object (`sources/hqualities.cpp:14-53`). -/
def QCall.runH : QCall → HQualities K → Res (HQualities K)
  | .compute, o => o.computeQualities
  | .normalize, o => o.normalize

/-- The call on a spatiotemporal qualities object (`sources/dqualities.cpp:13-77`). -/
def QCall.runD : QCall → DQualities K → Res (DQualities K)
  | .compute, o => o.computeQualities
  | .normalize, o => o.normalize

end Lp
