import Verif.Spec.Double
import Verif.Spec.RoundedLog
import Verif.Spec.RoundedArea
import Verif.Spec.Reading

/-!
# Specification: the exported functions in machine arithmetic

`MachineLaws`: the laws of all the arithmetics that take part in a call from R.  `long double` numbers (type `K`) stand for real numbers (`val`),
with relative errors of at most `u` per operation and accuracy `w` of the logarithms (`LogLaws`); the accumulator of `computeAUC` is a `float`
(`rnd`, relative error at most `a`, `AreaLaws`); parameters (type `F`) stand for rational numbers (`pv`, error of the operations at most `r`,
`FloatLaws`); R's numbers (type `D`) stand for real numbers (`vd`); a `float` or `double` is converted to a wider type without error, a `long
double` to `double` with an error of at most `b`, relative for numbers above 1.
`NearSheet`: what R gets is right up to given errors.
-/

namespace Lp

/-- See the header. -/
structure MachineLaws {D F K : Type} [LDLog K] [FloatP F K] (c : RNum D F K) (rnd : K → K) (val : K → ℝ) (vd : D → ℝ) (pv : F → ℚ)
    (u w a b : ℝ) (r : ℚ) : Prop where
  log : LogLaws val u w
  area : AreaLaws val u a rnd
  float : FloatLaws (Spec.Reading F pv) ℚ r
  w_le : w ≤ 1 / 2
  u_le : u ≤ 1 / 8
  b_nonneg : 0 ≤ b
  b_le : b ≤ 1 / 8
  toK : ∀ p : F, val (FloatP.toK p) = pv p
  wide : ∀ d, val (c.wide d) = vd d
  ofFloat : ∀ p : F, vd (c.ofFloat p) = pv p
  oneSub : ∀ p : F, 0 ≤ pv p → pv p ≤ 1 → |pv (FloatP.oneSub p) - (1 - pv p)| ≤ r
  narrow : ∀ x, |vd (c.narrow x) - val x| ≤ b * max 1 |val x|
  int : ∀ (d : D) (n : Int), vd d = n → |n| ≤ 2 ^ 31 → c.toInt (c.pred d) = n - 1

namespace Spec
open scoped BigOperators
variable {ι : Type}

/-- Size of the terms that make up gain and loss, whatever the partition of the positions `s`. -/
noncomputable def dataSize (s : Finset ι) (v : ι → ℝ) : ℝ :=
  ((∑ x ∈ s, v x) * (3 + 2 * max 0 (Real.log (∑ x ∈ s, v x)) + Real.log s.card) + 2 * s.card) / Real.log 2

/-- The same, over the series `v i j` with `i < a` and `j < b`. -/
noncomputable def size3 (a b : Nat) (v : Nat → Nat → ι → ℝ) (s : Finset ι) : ℝ :=
  ∑ i ∈ Finset.range a, ∑ j ∈ Finset.range b, dataSize s (v i j)

/-- Error of gains and losses relative to those of the whole, if the size of the terms is at most `κ` times the gain and `κ` times the loss of the
whole, after `k` roundings. -/
noncomputable def relErr (u w κ : ℝ) (k : Nat) : ℝ := 8 * (((1 + w) ^ 3 * (1 + u) ^ k - 1) * κ)

/-- Error of the area below `n` points, relative to its terms. -/
noncomputable def areaErr (a b : ℝ) (n : Nat) : ℝ := (1 + a) ^ (2 * n + 4) * (1 + b) * (1 + 15 * n * b) - 1

/-- Point of a row of `Qualities`. -/
def pointD {D : Type} (vd : D → ℝ) (e : QRow D D) : Quality ℝ := ⟨vd e.gain, vd e.loss⟩

/-- The result `t` that R gets is right up to the errors `δ` of gains and losses, `r` of the weight of the loss, `ρ` of the squared distance and
`α n` of the area below `n` points.  `param`, `gainCol` and `lossCol` are the columns `Parameter`, `Gain` and `Loss` of `Partitions`, `place x`
are the columns of row `x` that say which part it is about; `placeOf y` is what they are to contain for part `y`. -/
structure NearSheet {D A R Z : Type} (vd : D → ℝ) (δ r ρ : ℝ) (α : Nat → ℝ) (param gainCol lossCol : R → D) (place : R → Z) (placeOf : A → Z)
    (part rival : List A → Prop) (quality : A → Quality ℝ) (t : RResult D D R) : Prop where
  /-- `Qualities` starts with parameter 0, and its parameters increase strictly and are at most 1. -/
  first : ∃ p, (t.qualities.map QRow.parameter).head? = some p ∧ vd p = 0
  sorted : (t.qualities.map QRow.parameter).Pairwise (fun x y => vd x < vd y)
  range : ∀ e ∈ t.qualities, 0 ≤ vd e.parameter ∧ vd e.parameter ≤ 1
  /-- `Partitions` is made of the rows of these parameters, in the order of `Qualities`. -/
  grouped : t.partitions = t.qualities.flatMap (fun e => rowsAt param e.parameter t.partitions)
  /-- The rows of a parameter describe a partition `L`: they are about its parts, and have their gains and losses; the gain and the loss in
  `Qualities` are those of `L`; no rival is better. -/
  rows : ∀ e ∈ t.qualities, ∃ L, part L ∧ (rowsAt param e.parameter t.partitions).map place = L.map placeOf ∧
    List.Forall₂ (fun x y => |vd (gainCol x) - (quality y).gain| ≤ δ ∧ |vd (lossCol x) - (quality y).loss| ≤ δ)
      (rowsAt param e.parameter t.partitions) L ∧
    |vd e.gain - gainOf quality L| ≤ δ ∧ |vd e.loss - lossOf quality L| ≤ δ ∧
    0 ≤ gainOf quality L ∧ gainOf quality L ≤ 1 ∧ 0 ≤ lossOf quality L ∧ lossOf quality L ≤ 1 ∧
    ∃ q, |q - (1 - vd e.parameter)| ≤ r ∧ ∀ L', rival L' →
      vd e.parameter * gainOf quality L' - q * lossOf quality L' ≤ vd e.parameter * gainOf quality L - q * lossOf quality L + δ
  /-- Consecutive parameters have different partitions. -/
  changes : t.qualities.IsChain (fun e e' =>
    (rowsAt param e.parameter t.partitions).map place ≠ (rowsAt param e'.parameter t.partitions).map place)
  /-- `POpt` is a parameter of `Qualities`, and no other one is nearer to gain 1 and loss 0. -/
  opt : ∃ e ∈ t.qualities, e.parameter = t.pOpt ∧ ∀ e' ∈ t.qualities, distance (pointD vd e) ≤ distance (pointD vd e') + ρ
  /-- `AUC` is 1 minus the area below the polygon through the points of `Qualities`. -/
  auc : |vd t.auc - (1 - polyArea (t.qualities.map (pointD vd)))| ≤
    α t.qualities.length * (1 + areaSize (t.qualities.map (pointD vd)))

end Spec
end Lp
