import Mathlib.Data.Real.Basic
import Verif.Model.RBinding
import Verif.Spec.Value

/-!
# Specification: the results of a function called from R, for different thresholds

`call t fuel` is the call with threshold `t` (`fuel` bounds the depth of the search; a call that returns does not depend on it).
-/

namespace Lp.Spec
variable {F R A : Type}

/-- The points of the quality curve: the columns `Gain` and `Loss` of `Qualities`. -/
def curvePoints (r : RResult F ℝ R) : List (ℝ × ℝ) := r.qualities.map (fun e => (e.gain, e.loss))

/-- Squared distance of a row of `Qualities` from gain 1 and loss 0. -/
def rowDistance (e : QRow F ℝ) : ℝ := (e.gain - 1) ^ 2 + e.loss ^ 2

/-- Everything on the curve of `r` is, in order, on that of `r'`; the area is not smaller; the row of the optimal parameter is at
least as near to gain 1 and loss 0. -/
structure OnlyAdds (r r' : RResult F ℝ R) : Prop where
  points : (curvePoints r).Sublist (curvePoints r')
  area : r.auc ≤ r'.auc
  optimum : ∃ e ∈ r.qualities, ∃ e' ∈ r'.qualities, e.parameter = r.pOpt ∧ e'.parameter = r'.pOpt ∧ rowDistance e' ≤ rowDistance e

/-- The same curve, the same area, and the same gain and loss at the optimal parameter. -/
structure SameResult (r r' : RResult F ℝ R) : Prop where
  points : curvePoints r = curvePoints r'
  area : r.auc = r'.auc
  optimum : ∃ e ∈ r.qualities, ∃ e' ∈ r'.qualities, e.parameter = r.pOpt ∧ e'.parameter = r'.pOpt ∧ e.gain = e'.gain ∧ e.loss = e'.loss

/-- From the positive threshold `T` on nothing is missing: at every number `p` between 0 and 1 some row is worth as much as every
rival partition; all calls return, and their results are the same. -/
structure NothingMissing (call : ℝ → Nat → Res (RResult ℝ ℝ R)) (rival : List A → Prop) (quality : A → Quality ℝ) (T : ℝ) : Prop where
  pos : 0 < T
  returns : ∀ t, 0 < t → ∃ N, ∀ fuel, N ≤ fuel → ∃ r, call t fuel = .ok r
  all : ∀ t fuel r, 0 < t → t ≤ T → call t fuel = .ok r → ∀ p, 0 ≤ p → p ≤ 1 → ∀ L, rival L →
    ∃ e ∈ r.qualities, p * gainOf quality L - (1 - p) * lossOf quality L ≤ p * e.gain - (1 - p) * e.loss
  same : ∀ t t' fuel fuel' r r', 0 < t → t ≤ T → 0 < t' → t' ≤ T → call t fuel = .ok r → call t' fuel' = .ok r' → SameResult r r'

end Lp.Spec
