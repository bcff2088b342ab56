import Mathlib.Algebra.Order.Field.Basic
import Mathlib.Data.Real.Basic
import Mathlib.Analysis.SpecialFunctions.Log.Basic

/-!
# The number types of the program

`LD K` packages the operations the code applies to `lp_quality_type` (`long double`, `headers/lpglobal.h:16`)
and to `double`; no law is assumed, so IEEE arithmetic with rounding, infinities and NaN is an instance.
`LDLog K` adds the logarithms and the conversion from `int`.  `FloatP F K` packages the operations on the `float`
parameter `p`.
-/

namespace Lp

/-- Operations on `long double` / `double` used by the code. -/
class LD (K : Type) extends Zero K, One K, Add K, Sub K, Mul K, Div K, LT K, BEq K where
  decLt : (a b : K) → Decidable (a < b)

instance {K : Type} [LD K] (a b : K) : Decidable (a < b) := LD.decLt a b

/-- Logarithms, and conversion of an `int`.  `sources/complexity.cpp` calls `log` on a `long double` (`log`), on an `int`
(`logInt`), and `headers/complexity.h:47` on the literal `2.0` (`ln`); which overloads these are depends on the headers, so
they are three separate operations. -/
class LDLog (K : Type) extends LD K where
  log : K → K
  logInt : Int → K
  ln : K
  ofInt : Int → K

/-- Operations on `float` (the parameter `p`, the threshold). -/
class FloatP (F : Type) (K : outParam Type) where
  toK : F → K        -- conversion to `long double`
  zero : F           -- the literal `0`
  oneSub : F → F     -- `1 - p`
  sub : F → F → F    -- `a - b`
  add : F → F → F    -- `a + b`
  half : F → F       -- `a / 2`
  lt : F → F → Bool  -- `a < b`

/-- Exact arithmetic of an ordered field. -/
instance (priority := 100) ordLD (K : Type) [Field K] [LinearOrder K] : LD K where
  zero := 0
  one := 1
  add := (· + ·)
  sub := (· - ·)
  mul := (· * ·)
  div := (· / ·)
  lt := (· < ·)
  beq a b := decide (a = b)
  decLt := inferInstance

/-- Exact reals with the natural logarithm. -/
noncomputable instance realLDLog : LDLog ℝ where
  toLD := ordLD ℝ
  log := Real.log
  logInt z := Real.log (z : ℝ)
  ln := Real.log 2
  ofInt z := (z : ℝ)

end Lp
