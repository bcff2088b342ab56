import Verif.Base.Num

/-!
# Hardware arithmetic

Lean's `Float` (IEEE binary64) and `Float32` (IEEE binary32) are instances of the number classes, with all their
rounding, infinities and NaNs: the theorems that hold for every `LD K`, `FloatP F K` hold for them.
(`long double` itself is not a Lean type; no theorem depends on these instances.)
-/

namespace Lp

instance : LD Float where
  zero := 0
  one := 1
  add := Float.add
  sub := Float.sub
  mul := Float.mul
  div := Float.div
  lt a b := Float.lt a b = true
  beq := Float.beq
  decLt a b := inferInstanceAs (Decidable (Float.lt a b = true))

instance : FloatP Float32 Float where
  toK := Float32.toFloat
  zero := 0
  oneSub p := 1 - p
  sub a b := a - b
  add a b := a + b
  half a := a / 2
  lt a b := decide (a < b)

end Lp
