import Verif.Spec.Rounded
import Verif.Model.Partitioner

/-!
# Specification: rounding in the summary figures

`AreaLaws val u w rnd`: on top of `RoundedLaws val u`, the literal 1 is exact, dividing by the literal 2 has relative error at
most `u`, and converting to the type of the accumulator of `computeAUC` (`float`, by `rnd`) has relative error at most `w`,
`w` being not smaller than `u`.
`area` is the area below the polygon through the points `(gain, loss)`, `areaSize` the sum of the sizes of its terms,
`distance` the squared distance to the ideal point `(1, 0)`.
-/

namespace Lp

/-- See the header. -/
structure AreaLaws {K E : Type} [LD K] [Field E] [LinearOrder E] (val : K → E) (u w : E) (rnd : K → K) : Prop
    extends RoundedLaws val u where
  le : u ≤ w
  one : val 1 = 1
  half_err : ∀ a : K, |val (a / (1 + 1)) - val a / 2| ≤ u * |val a / 2|
  rnd_err : ∀ a : K, |val (rnd a) - val a| ≤ w * |val a|

namespace Spec
variable {K E : Type} [Field E] [LinearOrder E]

/-- The exact point that a computed quality stands for. -/
def pointOf (val : K → E) (q : Quality K) : Quality E := ⟨val q.gain, val q.loss⟩

/-- Area below the polygon. -/
def polyArea : List (Quality E) → E
  | a :: b :: l => (b.gain - a.gain) * (b.loss + a.loss) / 2 + polyArea (b :: l)
  | _ => 0

/-- Sum of the sizes of the trapezoids. -/
def areaSize : List (Quality E) → E
  | a :: b :: l => |(b.gain - a.gain) * (b.loss + a.loss) / 2| + areaSize (b :: l)
  | _ => 0

/-- Squared distance to gain 1, loss 0. -/
def distance (q : Quality E) : E := (q.gain - 1) ^ 2 + q.loss ^ 2

end Spec
end Lp
