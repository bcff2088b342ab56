import Verif.Spec.Rounded
import Verif.Spec.Entropy
import Verif.Model.Quality

/-!
# Specification: rounded arithmetic with logarithms, and the sizes of the terms of a quality

`LogLaws val u w`: on top of `RoundedLaws val u`, division has relative error at most `u`, and each of the three logarithms
the code takes (of a `long double`, of an `int`, of the literal 2.0) is off by at most `w * (1 + |log x|)`.  An error that is
not relative is allowed because the `long double` argument may be converted to `double` before the logarithm is taken.
-/

namespace Lp

/-- The laws of rounded arithmetic with logarithms. -/
structure LogLaws {K : Type} [LDLog K] (val : K → ℝ) (u w : ℝ) : Prop extends RoundedLaws val u where
  acc_nonneg : 0 ≤ w
  div_err : ∀ a b : K, val b ≠ 0 → |val (a / b) - val a / val b| ≤ u * |val a / val b|
  log_err : ∀ a : K, 0 < val a → |val (LDLog.log a) - Real.log (val a)| ≤ w * (1 + |Real.log (val a)|)
  logInt_err : ∀ z : Int, 0 < z → z < 2147483648 → |val (LDLog.logInt z) - Real.log z| ≤ w * (1 + |Real.log z|)
  ln_err : |val LDLog.ln - Real.log 2| ≤ w * Real.log 2

/-- The numbers of `Rounded R`, with logarithms taken in the precision `D`. -/
def RoundedLog (R _D : RoundTo ℝ) : Type := Rounded R

/-- The number that a representable number is. -/
def RoundedLog.val {R D : RoundTo ℝ} (x : RoundedLog R D) : ℝ := Subtype.val (show Rounded R from x)

/-- The representable number that `x` is rounded to. -/
noncomputable def RoundedLog.of {R : RoundTo ℝ} (D : RoundTo ℝ) (x : ℝ) : RoundedLog R D := R.to x

/-- Arithmetic in the precision `R` (`long double`); for a logarithm the argument is converted to the precision `D`
(`double`), the logarithm is rounded to the precision `D` and then converted back. -/
noncomputable instance (R D : RoundTo ℝ) : LDLog (RoundedLog R D) where
  toLD := inferInstanceAs (LD (Rounded R))
  log x := RoundedLog.of D (D.rnd (Real.log (D.rnd x.val)))
  logInt z := RoundedLog.of D (D.rnd (Real.log (z : ℝ)))
  ln := RoundedLog.of D (D.rnd (Real.log 2))
  ofInt z := RoundedLog.of D (z : ℝ)

/-- Accuracy of those logarithms. -/
noncomputable def logAccuracy (R D : RoundTo ℝ) : ℝ := (1 + 2 * D.u) * (1 + D.u) * (1 + R.u) - 1

namespace Spec
open scoped BigOperators
variable {ι : Type}

/-- Size of the computation of `x log₂ x`, for `0 ≤ x`. -/
noncomputable def scale (x : ℝ) : ℝ := x * (1 + |Real.log x|) / Real.log 2

/-- Size of the terms of the gain. -/
noncomputable def gainScale (s : Finset ι) (v : ι → ℝ) : ℝ := scale (∑ x ∈ s, v x) + ∑ x ∈ s, scale (v x)

/-- Size of the terms of the loss. -/
noncomputable def lossScale (s : Finset ι) (v : ι → ℝ) : ℝ :=
  (∑ x ∈ s, v x) * (1 + |Real.log s.card|) / Real.log 2 + gainScale s v

/-- Gain and loss of aggregating the positions `s`, over `m` series. -/
noncomputable def trueQuality (m : Nat) (V : Nat → ι → ℝ) (s : Finset ι) : Quality ℝ := ⟨gainSeries m s V, lossSeries m s V⟩

/-- Size of the terms of gain and loss over `m` series, with the weights `a` and `b`. -/
noncomputable def termScale (a b : ℝ) (m : Nat) (V : Nat → ι → ℝ) (s : Finset ι) : ℝ :=
  |a| * ∑ k ∈ Finset.range m, gainScale s (V k) + |b| * ∑ k ∈ Finset.range m, lossScale s (V k)

end Spec
end Lp
