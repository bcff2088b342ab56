import Verif.Spec.Range
import Verif.Spec.Special

/-!
# Specification: an arithmetic with a bounded range

`Limited K val E Q lost`: the numbers of the arithmetic `K`, infinities and NaN.  A sum, difference, product or quotient that is zero or
between `2^-E` and `2^E` in magnitude is the one of `K`; any other one (`x`) becomes `lost x`, whatever that is: an infinity, NaN, a
subnormal number, zero, the largest number.  The same for a logarithm of a number that is not between `2^-Q` and `2^Q`.
-/

namespace Lp.Spec

/-- See the header. -/
def Limited (K : Type) (_val : K → ℝ) (_E _Q : Nat) (_lost : K → Special K) : Type := Special K

namespace Limited
variable {K : Type} (val : K → ℝ) (E Q : Nat) (lost : K → Special K)

open Classical in
/-- Keep a result that is in range. -/
noncomputable def keep (x : K) : Special K := if InRange E (val x) then .num x else lost x

variable [LDLog K]

noncomputable def add : Special K → Special K → Special K
  | .num a, .num b => keep val E lost (a + b)
  | x, y => Special.add x y

noncomputable def sub : Special K → Special K → Special K
  | .num a, .num b => keep val E lost (a - b)
  | x, y => Special.sub x y

noncomputable def mul : Special K → Special K → Special K
  | .num a, .num b => keep val E lost (a * b)
  | x, y => Special.mul x y

noncomputable def div : Special K → Special K → Special K
  | .num a, .num b => if b < 0 ∨ 0 < b then keep val E lost (a / b) else Special.div (.num a) (.num b)
  | x, y => Special.div x y

open Classical in
noncomputable def log : Special K → Special K
  | .num a => if 0 < a ∧ ¬ InRange Q (val a) then lost a else Special.log (.num a)
  | x => Special.log x

end Limited

noncomputable instance limitedLD (K : Type) [LDLog K] (val : K → ℝ) (E Q : Nat) (lost : K → Special K) : LD (Limited K val E Q lost) where
  zero := Special.num 0
  one := Special.num 1
  add := Limited.add val E lost
  sub := Limited.sub val E lost
  mul := Limited.mul val E lost
  div := Limited.div val E lost
  lt a b := Special.ltB a b = true
  beq := Special.eqB
  decLt _ _ := inferInstance

noncomputable instance limitedLDLog (K : Type) [LDLog K] (val : K → ℝ) (E Q : Nat) (lost : K → Special K) :
    LDLog (Limited K val E Q lost) where
  toLD := limitedLD K val E Q lost
  log := Limited.log val Q lost
  logInt z := Special.num (LDLog.logInt z)
  ln := Special.num LDLog.ln
  ofInt z := Limited.keep val E lost (LDLog.ofInt z)

/-- A number. -/
def Limited.fin {K : Type} {val : K → ℝ} {E Q : Nat} {lost : K → Special K} (x : Limited K val E Q lost) : Prop :=
  ∃ a : K, x = (Special.num a : Special K)

/-- The number it is. -/
def Limited.num {K : Type} [LD K] {val : K → ℝ} {E Q : Nat} {lost : K → Special K} : Limited K val E Q lost → K
  | Special.num a => a
  | _ => 0

/-- The parameter computed in the same arithmetic. -/
noncomputable instance limitedP (K : Type) [LDLog K] (val : K → ℝ) (E Q : Nat) (lost : K → Special K) :
    FloatP (Limited K val E Q lost) (Limited K val E Q lost) where
  toK p := p
  zero := 0
  oneSub p := 1 - p
  sub a b := a - b
  add a b := a + b
  half a := a / (1 + 1)
  lt a b := decide (a < b)

end Lp.Spec
