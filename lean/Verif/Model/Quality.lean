import Verif.Base.Num
import Verif.Base.Res

/-!
# `Quality` (sources/quality.cpp, headers/quality.h)
-/

namespace Lp

/-- `class Quality`: `headers/quality.h:14-57` (fields `gain`, `loss`). -/
structure Quality (K : Type) where
  gain : K
  loss : K
  deriving DecidableEq, Repr

namespace Quality
variable {K : Type} [LD K]

/-- `Quality::Quality()`: `sources/quality.cpp:3-6`. -/
def zero : Quality K := ⟨0, 0⟩

/-- `addToGain`: `sources/quality.cpp:33-36`. -/
def addToGain (q : Quality K) (g : K) : Quality K := { q with gain := q.gain + g }

/-- `addToLoss`: `sources/quality.cpp:38-41`. -/
def addToLoss (q : Quality K) (l : K) : Quality K := { q with loss := q.loss + l }

/-- `operator+=`: `sources/quality.cpp:43-47`; `operator+`: `:67-70` has the same value. -/
def add (q r : Quality K) : Quality K := ⟨q.gain + r.gain, q.loss + r.loss⟩

/-- `operator-=`: `sources/quality.cpp:49-53`; `operator-`: `:72-75`. -/
def sub (q r : Quality K) : Quality K := ⟨q.gain - r.gain, q.loss - r.loss⟩

/-- `operator*=`: `sources/quality.cpp:55-59`; `operator*`: `:77-80`. -/
def mul (q r : Quality K) : Quality K := ⟨q.gain * r.gain, q.loss * r.loss⟩

/-- `operator/=`: `sources/quality.cpp:61-65`; `operator/`: `:82-85`.
When the argument is the object itself (`q /= q`) the result is the same as with a copy, because `loss` is read
only after `gain` has been written and the two are independent. -/
def div (q r : Quality K) : Quality K := ⟨q.gain / r.gain, q.loss / r.loss⟩

/-- `std::max(a,b)`: returns `a` unless `a < b`. -/
def cmax (a b : K) : K := if a < b then b else a

/-- `std::abs` on `long double`. -/
def cabs (a : K) : K := if a < 0 then 0 - a else a

/-- `operator==`: `sources/quality.cpp:87-93`.  `prec` stands for the constant `LP_PRECISION`
(`headers/lpglobal.h:6`).  Note that lines 91 and 92 of the source both test the *gain*. -/
def eqOp (prec : K) (q r : Quality K) : Bool :=
  let precision := cmax (q.gain + r.gain) (q.loss + r.loss) / (1 + 1) * prec
  ((q.gain == r.gain) && (q.loss == r.loss)) ||
    (decide (cabs (q.gain - r.gain) < precision) && decide (cabs (q.gain - r.gain) < precision))

/-- `operator!=`: `sources/quality.cpp:95-98`. -/
def neOp (prec : K) (q r : Quality K) : Bool := !(eqOp prec q r)

end Quality
end Lp
