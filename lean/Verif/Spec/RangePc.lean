import Verif.Spec.RangeMachine
import Verif.Spec.Pc
import Verif.Props.C84

/-!
# Specification: the numbers of a PC with their ranges

As in `Spec/Pc.lean`, but `long double` numbers have 15-bit exponents (`C84.Long`: results out of range become `lost x`, logarithms are
taken in `double`), the accumulator of `computeAUC` is binary32 with its subnormals, and numbers too large for a conversion become
something unspecified (`over`, `other`).
-/

namespace Lp.Spec

/-- A rounding of the real numbers to binary32. -/
structure Rounding32 where
  rnd : ℝ → ℚ
  b32 : ∀ x, IsB32 (rnd x)
  mono : ∀ x y, x ≤ y → rnd x ≤ rnd y
  fix : ∀ x : ℚ, IsB32 x → rnd x = x

/-- What a PC does that C and C++ leave open: the roundings of `double`, of `float` and of the accumulator, and what becomes of results
that are out of range, of the conversions of too large numbers, of infinities and of NaN. -/
structure PcChoice where
  S : Rounding64
  R : Rounding
  A : Rounding32
  lost : PcLong → Special PcLong
  over : C84.Long lost → C84.Long lost
  other : C84.Long lost → B64

namespace PcChoice

/-- `long double`. -/
abbrev Long (M : PcChoice) : Type := C84.Long M.lost

/-- A number that is a `long double`. -/
noncomputable abbrev long (M : PcChoice) : ℚ → M.Long := C84.longOf M.lost

/-- `float`. -/
abbrev Float (M : PcChoice) : Type := With (B32 M.R) M.long

open Classical in
/-- The conversions. -/
noncomputable def num (M : PcChoice) : RNum B64 M.Float M.Long where
  wide d := M.long d.1
  narrow x := if Limited.fin x ∧ |(Limited.num x).val| ≤ 2 ^ 1023 then ⟨M.S.rnd (Limited.num x).val, M.S.b64 _⟩ else M.other x
  ofFloat p := ⟨Subtype.val (show B32 M.R from p), b32_b64 (Subtype.property (show B32 M.R from p))⟩
  toFloat d := (⟨M.R.rnd d.1, M.R.b32 _⟩ : B32 M.R)
  pred d := ⟨M.S.rnd (d.1 - 1), M.S.b64 _⟩
  toInt d := chop d.1

open Classical in
/-- The accumulator of `computeAUC`. -/
noncomputable def acc (M : PcChoice) (x : M.Long) : M.Long :=
  if Limited.fin x ∧ |(Limited.num x).val| ≤ 2 ^ 127 then M.long (M.A.rnd (Limited.num x).val) else M.over x

end PcChoice

/-- Towards zero. -/
noncomputable def towardsZero32 : Rounding32 where
  rnd x := if 0 ≤ x then cutReal 24 149 x else -(cutReal 24 149 (-x))
  b32 x := by
    split
    · exact cut_bin (by norm_num) _
    · exact isB32_neg (cut_bin (by norm_num) _)
  mono x y h := by
    by_cases hx : 0 ≤ x
    · rw [if_pos hx, if_pos (le_trans hx h)]; exact cutReal_mono h
    · rw [if_neg hx]
      by_cases hy : 0 ≤ y
      · rw [if_pos hy]; have := cutReal_nonneg 24 149 (-x); have := cutReal_nonneg 24 149 y; linarith
      · rw [if_neg hy]; have := cutReal_mono (b := 24) (s := 149) (show -y ≤ -x by linarith); linarith
  fix x h := by
    split
    · rename_i h0
      exact cutReal_fix (by norm_num) (by exact_mod_cast h0) h
    · rename_i h0
      have h0 : x < 0 := by push Not at h0; exact_mod_cast h0
      have := cutReal_fix (b := 24) (s := 149) (by norm_num) (x := -x) (by linarith) (isB32_neg h)
      rw [Rat.cast_neg] at this
      rw [this, neg_neg]

/-- A machine that rounds towards zero and makes everything out of range NaN. -/
noncomputable def PcChoice.chopping : PcChoice where
  S := towardsZero64
  R := roundToZero
  A := towardsZero32
  lost _ := .nan
  over x := x
  other _ := ⟨0, isB64_zero⟩

end Lp.Spec
