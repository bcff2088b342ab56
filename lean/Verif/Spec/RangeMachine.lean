import Verif.Spec.Range
import Verif.Spec.Machine

/-!
# Specification: a call from R on a machine with a bounded range of exponents

`MachineLaws` (`Spec/Machine.lean`) describes a call from R in arithmetics with exponents of any size.  In `RangeMachine` the `long double`
numbers (type `K'`) have a bounded range (`RangeArith`, `Spec/Range.lean`: bits `b`, smallest logarithm `2^-g`, range `E`, range `Q` of the
arguments of logarithms).  The `float` accumulator of `computeAUC` (`rnd`) has relative error at most `a` and, because of its smallest
number, absolute error at most `s`, for numbers up to `2^G`; of larger ones nothing is assumed, and its values are multiples of `2^-k`.  Parameters
from 0 to 1 are multiples of `2^-k` too.  A `long double` up to `2^G` is converted to `double` with an error of at most `β`, relative for
numbers above 1; of the conversion of larger ones, of infinities and of NaN nothing is assumed.
-/

namespace Lp

/-- See the header. -/
structure RangeMachine {D F K' K : Type} [LDLog K'] [LDLog K] [FloatP F K'] (c : RNum D F K') (rnd : K' → K') (fin : K' → Prop) (num : K' → K)
    (val : K → ℝ) (vd : D → ℝ) (pv : F → ℚ) (u w a s β : ℝ) (r : ℚ) (b g E Q k G : Nat) : Prop where
  arith : RangeArith fin num val u w b g E Q
  one : fin 1 ∧ num 1 = 1
  valOne : val 1 = 1
  half : ∀ x : K, |val (x / (1 + 1)) - val x / 2| ≤ u * |val x / 2|
  float : FloatLaws (Spec.Reading F pv) ℚ r
  u_le : u ≤ 1 / 8
  le : u ≤ a
  s_nonneg : 0 ≤ s
  s_le : s ≤ 1
  β_nonneg : 0 ≤ β
  β_le : β ≤ 1 / 8
  top : G ≤ E
  two : 2 ≤ G
  toK : ∀ p : F, 0 ≤ pv p → pv p ≤ 1 → fin (FloatP.toK p) ∧ Grid k (pv p : ℝ) ∧ val (num (FloatP.toK p)) = pv p
  wide : ∀ d, fin (c.wide d) ∧ val (num (c.wide d)) = vd d
  ofFloat : ∀ p : F, vd (c.ofFloat p) = pv p
  oneSub : ∀ p : F, 0 ≤ pv p → pv p ≤ 1 → |pv (FloatP.oneSub p) - (1 - pv p)| ≤ r
  narrow : ∀ x, fin x → |val (num x)| ≤ 2 ^ G → |vd (c.narrow x) - val (num x)| ≤ β * max 1 |val (num x)|
  acc : ∀ x, fin x → |val (num x)| ≤ 2 ^ G →
    fin (rnd x) ∧ Grid k (val (num (rnd x))) ∧ |val (num (rnd x)) - val (num x)| ≤ a * |val (num x)| + s
  int : ∀ (d : D) (n : Int), vd d = n → |n| ≤ 2 ^ 31 → c.toInt (c.pred d) = n - 1

/-- The threshold `t` (resolution of the parameters `r`): `2^H` thresholds, less the rounding, cover the range of the parameters, and the
area below `2^H + 1` points can be summed up (relative error of the accumulator `a`, numbers up to `2^G`). -/
structure SearchFits (a : ℝ) (r : ℚ) (H G : Nat) (t : ℚ) : Prop where
  pos : 0 < t
  res : 11 * r ≤ t
  depth : 1 ≤ 2 ^ H * (t - 6 * r) + 5 * r
  grow : (1 + a) ^ (2 * (2 ^ H + 1) + 4) ≤ 2
  top : 2 * (1 + 9 * ((2 : ℝ) ^ H + 1)) ≤ 2 ^ G

/-- Error of the area below `n` points, relative to its terms. -/
noncomputable def Spec.areaErrIn (a s β : ℝ) (n : Nat) : ℝ := (1 + a) ^ (2 * n + 4) * (1 + n * s) * (1 + β) * (1 + 15 * n * β) - 1

end Lp
