import Verif.Model.Partitioner

/-!
# Specification: NaN

`NaNLaws isNaN`: what IEEE arithmetic guarantees of NaN: an operation with a NaN operand gives NaN, zero divided by zero gives
NaN, and every comparison with a NaN is false.  No other law is assumed, so rounding, overflow and signed zeros are allowed.
`Special K` adds the infinities and NaN to any arithmetic `K`; it satisfies the laws (`Proofs/NaN.lean`).
-/

namespace Lp.Spec

/-- The laws of NaN used by the theorems. -/
structure NaNLaws {K : Type} [LD K] (isNaN : K → Prop) : Prop where
  add_left : ∀ a b : K, isNaN a → isNaN (a + b)
  add_right : ∀ a b : K, isNaN b → isNaN (a + b)
  sub_left : ∀ a b : K, isNaN a → isNaN (a - b)
  sub_right : ∀ a b : K, isNaN b → isNaN (a - b)
  mul_left : ∀ a b : K, isNaN a → isNaN (a * b)
  mul_right : ∀ a b : K, isNaN b → isNaN (a * b)
  div_left : ∀ a b : K, isNaN a → isNaN (a / b)
  div_right : ∀ a b : K, isNaN b → isNaN (a / b)
  zero_div_zero : ∀ a b : K, (a == 0) = true → (b == 0) = true → isNaN (a / b)
  zero_eq : ((0 : K) == 0) = true
  lt_left : ∀ a b : K, isNaN a → ¬ a < b
  lt_right : ∀ a b : K, isNaN b → ¬ a < b
  eq_left : ∀ a b : K, isNaN a → (a == b) = false
  eq_right : ∀ a b : K, isNaN b → (a == b) = false

/-- What the computation on zeros uses: sums and differences of zeros are zero, zero is not greater than zero, and zero times
the logarithm of a number of elements, and zero divided by `ln 2`, are zero. -/
structure ZeroLaws (K : Type) [LDLog K] : Prop where
  add : (0 : K) + 0 = 0
  sub : (0 : K) - 0 = 0
  lt : ¬ (0 : K) < 0
  mulLog : ∀ z : Int, 0 < z → (0 : K) * LDLog.logInt z = 0
  divLn : (0 : K) / LDLog.ln = 0

/-- A number of the arithmetic `K`, an infinity (`true`: negative) or NaN.  Zero has no sign, and numbers have no largest one. -/
inductive Special (K : Type)
  | num (a : K)
  | inf (negative : Bool)
  | nan
  deriving DecidableEq, Repr

namespace Special
variable {K : Type} [LD K]

def add : Special K → Special K → Special K
  | num a, num b => num (a + b)
  | num _, inf s => inf s
  | inf s, num _ => inf s
  | inf s, inf t => if s = t then inf s else nan
  | _, _ => nan

def sub : Special K → Special K → Special K
  | num a, num b => num (a - b)
  | num _, inf s => inf (!s)
  | inf s, num _ => inf s
  | inf s, inf t => if s = t then nan else inf s
  | _, _ => nan

/-- An infinity with sign `s` times the number `a`. -/
def scale (a : K) (s : Bool) : Special K := if a < 0 then inf (!s) else if 0 < a then inf s else nan

def mul : Special K → Special K → Special K
  | num a, num b => num (a * b)
  | num a, inf s => scale a s
  | inf s, num b => scale b s
  | inf s, inf t => inf (s != t)
  | _, _ => nan

def div : Special K → Special K → Special K
  | num a, num b => if b < 0 ∨ 0 < b then num (a / b) else scale a false
  | num _, inf _ => num 0
  | inf s, num b => if b < 0 then inf (!s) else inf s
  | _, _ => nan

def ltB : Special K → Special K → Bool
  | num a, num b => decide (a < b)
  | num _, inf s => !s
  | inf s, num _ => s
  | inf s, inf t => s && !t
  | _, _ => false

def eqB : Special K → Special K → Bool
  | num a, num b => a == b
  | inf s, inf t => s == t
  | _, _ => false

end Special

instance specialLD (K : Type) [LD K] : LD (Special K) where
  zero := .num 0
  one := .num 1
  add := Special.add
  sub := Special.sub
  mul := Special.mul
  div := Special.div
  lt a b := Special.ltB a b = true
  beq := Special.eqB
  decLt _ _ := inferInstance

/-- The logarithm of a negative number is NaN, that of zero is minus infinity. -/
def Special.log {K : Type} [LDLog K] : Special K → Special K
  | num a => if a < 0 then nan else if 0 < a then num (LDLog.log a) else inf true
  | inf s => if s then nan else inf false
  | nan => nan

instance specialLDLog (K : Type) [LDLog K] : LDLog (Special K) where
  toLD := specialLD K
  log := Special.log
  logInt z := .num (LDLog.logInt z)
  ln := .num LDLog.ln
  ofInt z := .num (LDLog.ofInt z)

/-- The parameter computed in the same arithmetic. -/
instance specialP (K : Type) [LD K] : FloatP (Special K) (Special K) where
  toK p := p
  zero := 0
  oneSub p := 1 - p
  sub a b := a - b
  add a b := a + b
  half a := a / (1 + 1)
  lt a b := decide (a < b)

/-- `lo` is less than `hi`, and the comparison is a strict order on the two. -/
structure Apart {F K : Type} [FloatP F K] (lo hi : F) : Prop where
  lt : FloatP.lt lo hi = true
  gt : FloatP.lt hi lo = false
  lo : FloatP.lt lo lo = false
  hi : FloatP.lt hi hi = false

/-- The search over any range keeps only the lower bound, and reading the optimal parameter after it reads an uninitialised
variable.  (Under the strict reading of the standard the search itself already uses an invalid iterator.) -/
def Undecided {F K P T : Type} [LD K] [FloatP F K] (ops : PartOps F K P T) : Prop :=
  ∀ (lo hi : F), Apart lo hi → ∀ (fuel : Nat) (t : F) (st : PState F K P T),
    computeBestPartitions ops true (fuel + 1) t lo hi st = .error .badIterator ∧
    ∃ st', computeBestPartitions ops false (fuel + 1) t lo hi st = .ok st' ∧ st'.pList = [lo] ∧
      ∀ randMax : K, getP randMax 2 st' = .error .uninit

end Lp.Spec
