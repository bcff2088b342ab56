import Verif.Model.Quality

/-!
# `Tradeoff` (sources/tradeoff.cpp, headers/tradeoff.h)

The `shared_ptr<Quality>` member is modelled by the two numbers it points to (value semantics).  That the sharing
created by the implicit copy assignment `*t1 = *t2` has no effect in the partitioners is proved separately, on
a model with an explicit heap (`Model/Heap.lean`).
-/

namespace Lp

/-- `class Tradeoff`: `headers/tradeoff.h:11-37`. -/
structure Tradeoff (K : Type) where
  value : K
  gain : K
  loss : K
  deriving DecidableEq, Repr

namespace Tradeoff
variable {K : Type} [LD K]

/-- `Tradeoff::Tradeoff()`: `sources/tradeoff.cpp:27-31`. -/
def zero : Tradeoff K := ⟨0, 0, 0⟩

/-- `computePIC(p)`: `sources/tradeoff.cpp:3-6`: `(p*gain)-((1-p)*loss)`; `1-p` is computed in `float`. -/
def pic {F : Type} [FloatP F K] (p : F) (g l : K) : K :=
  FloatP.toK p * g - FloatP.toK (FloatP.oneSub p) * l

/-- `set(quality, p)`: `sources/tradeoff.cpp:9-13` (and the constructor `:45-49`). -/
def set {F : Type} [FloatP F K] (q : Quality K) (p : F) : Tradeoff K := ⟨pic p q.gain q.loss, q.gain, q.loss⟩

/-- `operator+=`: `sources/tradeoff.cpp:59-63`; `operator+`: `:87-94`. -/
def add (a b : Tradeoff K) : Tradeoff K := ⟨a.value + b.value, a.gain + b.gain, a.loss + b.loss⟩

/-- `operator-=`: `sources/tradeoff.cpp:66-70`. -/
def sub (a b : Tradeoff K) : Tradeoff K := ⟨a.value - b.value, a.gain - b.gain, a.loss - b.loss⟩

/-- `operator*=`: `sources/tradeoff.cpp:73-77`. -/
def mul (a b : Tradeoff K) : Tradeoff K := ⟨a.value * b.value, a.gain * b.gain, a.loss * b.loss⟩

/-- `operator/=`: `sources/tradeoff.cpp:80-84`. -/
def div (a b : Tradeoff K) : Tradeoff K := ⟨a.value / b.value, a.gain / b.gain, a.loss / b.loss⟩

/-- `operator==`: `sources/tradeoff.cpp:127-131` (values only). -/
def eqOp (a b : Tradeoff K) : Bool := a.value == b.value

/-- `operator!=`: `sources/tradeoff.cpp:134-137`. -/
def neOp (a b : Tradeoff K) : Bool := !(a.value == b.value)

/-- `operator>`: `sources/tradeoff.cpp:140-146`. -/
def gt (a b : Tradeoff K) : Bool :=
  decide (b.value < a.value) ||
    ((a.value == b.value) &&
      (decide (b.gain < a.gain) || ((a.gain == b.gain) && decide (a.loss < b.loss))))

/-- `operator<=`: `sources/tradeoff.cpp:149-152`. -/
def le (a b : Tradeoff K) : Bool := !(gt a b)

/-- `operator<`: `sources/tradeoff.cpp:155-158`. -/
def lt (a b : Tradeoff K) : Bool := !(gt a b || eqOp a b)

/-- `operator>=`: `sources/tradeoff.cpp:161-164`. -/
def ge (a b : Tradeoff K) : Bool := !(lt a b)

end Tradeoff
end Lp
