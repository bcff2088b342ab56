import Verif.Spec.RoundedLog

/-!
# Specification: arithmetic with a bounded range of exponents

`LogLaws` (`Spec/RoundedLog.lean`) describes an arithmetic without overflow and underflow.  A real machine has smallest and largest
numbers.  `RangeLaws fin num val E Q` says that the machine numbers (type `K'`) behave like the numbers without bounds (type `K`) as long as
every result is zero or between `2^-E` and `2^E` in magnitude; of results outside this range (infinities, NaN, subnormals, flushing to
zero) nothing is assumed.  The argument of a logarithm
has to be between `2^-Q` and `2^Q`, because it may be converted to a `double`.  `fin x`: the machine number `x` is finite; it is then the number `num x`.
`FineLaws val b g` is about the numbers without bounds: they have at most `b` significant bits after the leading one, sums and differences
are rounded to a multiple of whatever power of two both terms are multiples of, and a logarithm is 0 or at least `2^-g` in magnitude.
-/

namespace Lp

/-- `x` is a multiple of `2^-a`. -/
def Grid (a : Nat) (x : ℝ) : Prop := ∃ z : ℤ, x = z / 2 ^ a

/-- `x` is zero or between `2^-E` and `2^E` in magnitude. -/
def InRange (E : Nat) (x : ℝ) : Prop := x = 0 ∨ (1 / 2 ^ E ≤ |x| ∧ |x| ≤ 2 ^ E)

/-- See the header. -/
structure FineLaws {K : Type} [LDLog K] (val : K → ℝ) (b g : Nat) : Prop where
  bits : ∀ (x : K) (e : Nat), 1 / 2 ^ e ≤ |val x| → Grid (e + b) (val x)
  add : ∀ (x y : K) (a : Nat), Grid a (val x) → Grid a (val y) → Grid a (val (x + y))
  sub : ∀ (x y : K) (a : Nat), Grid a (val x) → Grid a (val y) → Grid a (val (x - y))
  log : ∀ x : K, 0 < val x → val (LDLog.log x) ≠ 0 → 1 / 2 ^ g ≤ |val (LDLog.log x)|
  logInt : ∀ z : Int, 0 < z → val (LDLog.logInt z : K) ≠ 0 → 1 / 2 ^ g ≤ |val (LDLog.logInt z : K)|

/-- See the header. -/
structure RangeLaws {K' K : Type} [LDLog K'] [LDLog K] (fin : K' → Prop) (num : K' → K) (val : K → ℝ) (E Q : Nat) : Prop where
  zero : fin 0 ∧ num 0 = 0
  add : ∀ {x y : K'}, fin x → fin y → InRange E (val (num x + num y)) → fin (x + y) ∧ num (x + y) = num x + num y
  sub : ∀ {x y : K'}, fin x → fin y → InRange E (val (num x - num y)) → fin (x - y) ∧ num (x - y) = num x - num y
  mul : ∀ {x y : K'}, fin x → fin y → InRange E (val (num x * num y)) → fin (x * y) ∧ num (x * y) = num x * num y
  div : ∀ {x y : K'}, fin x → fin y → val (num y) ≠ 0 → InRange E (val (num x / num y)) →
    fin (x / y) ∧ num (x / y) = num x / num y
  log : ∀ {x : K'}, fin x → 0 < val (num x) → InRange Q (val (num x)) →
    fin (LDLog.log x) ∧ num (LDLog.log x) = LDLog.log (num x)
  logInt : ∀ z : Int, 0 < z → fin (LDLog.logInt z) ∧ num (LDLog.logInt z) = LDLog.logInt z
  ln : fin LDLog.ln ∧ num LDLog.ln = LDLog.ln
  lt : ∀ {x y : K'}, fin x → fin y → (x < y ↔ num x < num y)
  eq : ∀ {x y : K'}, fin x → fin y → ((x == y) = (num x == num y))

/-- The machine arithmetic `K'` has range `E` (`Q` for arguments of logarithms) and behaves within it like the arithmetic `K` with rounding errors at most `u`,
logarithms of accuracy `w`, `b` bits and smallest logarithm `2^-g`. -/
structure RangeArith {K' K : Type} [LDLog K'] [LDLog K] (fin : K' → Prop) (num : K' → K) (val : K → ℝ) (u w : ℝ) (b g E Q : Nat) : Prop where
  laws : LogLaws val u w
  fine : FineLaws val b g
  range : RangeLaws fin num val E Q
  u_le : u ≤ 1 / 2
  w_le : w ≤ 1 / 2

/-- The machine number `x` is finite, a multiple of `2^-a` and at most `B` in magnitude. -/
structure Held {K' K : Type} (fin : K' → Prop) (num : K' → K) (val : K → ℝ) (a : Nat) (B : ℝ) (x : K') : Prop where
  fin : fin x
  grid : Grid a (val (num x))
  mag : |val (num x)| ≤ B

/-- Both weights of the parameter `p` are multiples of `2^-c`, at most 2 in magnitude.  (A `float` is a multiple of `2^-149`.) -/
def Weights {F K' K : Type} [FloatP F K'] (fin : K' → Prop) (num : K' → K) (val : K → ℝ) (c : Nat) (p : F) : Prop :=
  Held fin num val c 2 (FloatP.toK p) ∧ Held fin num val c 2 (FloatP.toK (FloatP.oneSub p))

end Lp
