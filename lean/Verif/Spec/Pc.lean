import Verif.Spec.Machine

/-!
# Specification: the numbers of a PC

`double` is binary64, `float` is binary32, both with any rounding (`Spec/Double.lean`, `Spec/Binary.lean`); `long double` has 64-bit significands, and
logarithms are taken in `double` (`X87`, see C58: rounding towards zero has the largest error of the rounding modes).  The accumulator of
`computeAUC` has the 24-bit significands of `float`.
-/

namespace Lp.Spec

/-- `long double`. -/
abbrev PcLong : Type := RoundedLog (truncationIn ℝ 63) (truncationIn ℝ 52)

/-- A rational number as a `long double`. -/
noncomputable def pcLong (q : ℚ) : PcLong := RoundedLog.of _ (q : ℝ)

/-- `float`. -/
abbrev PcFloat (R : Rounding) : Type := With (B32 R) pcLong

/-- The conversions. -/
noncomputable def pcNum (S : Rounding64) (R : Rounding) (hR : ∀ x : B32 R, IsB64 x.1) : RNum B64 (PcFloat R) PcLong where
  wide d := pcLong d.1
  narrow x := ⟨S.rnd x.val, S.b64 _⟩
  ofFloat p := ⟨Subtype.val (show B32 R from p), hR p⟩
  toFloat d := (⟨R.rnd d.1, R.b32 _⟩ : B32 R)
  pred d := ⟨S.rnd (d.1 - 1), S.b64 _⟩
  toInt d := chop d.1

/-- The accumulator of `computeAUC`. -/
noncomputable def pcAcc (x : PcLong) : PcLong := RoundedLog.of _ (truncBits 23 x.val)

end Lp.Spec
