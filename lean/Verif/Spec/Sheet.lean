import Verif.Spec.Float
import Verif.Spec.Value
import Verif.Spec.Entropy
import Verif.Model.RBinding

/-!
# Specification: a right result of the functions called from R
-/

namespace Lp.Spec
variable {F A R : Type} [FloatP F ℝ]

/-- The R array with the given dimensions and value `f (i, j, k)` at the (zero-based) position `i, j, k`: R stores the first
index fastest. -/
def rArray {K : Type} (d0 d1 d2 : Nat) (f : Nat × Nat × Nat → K) : RArray K :=
  ⟨d0, d1, d2, (List.range d2).flatMap fun k => (List.range d1).flatMap fun j => (List.range d0).map fun i => f (i, j, k)⟩

open Classical in
/-- The rows with parameter `p`; `param` is the column `Parameter`. -/
noncomputable def rowsAt (param : R → F) (p : F) (rows : List R) : List R := rows.filter (fun r => decide (param r = p))

/-- The result `r` is right.  `param` is the column `Parameter` of `Partitions`, `part` says which lists of parts are
partitions, `rival` which ones compete, `quality` is the pair gain and loss of a part and `row p a` is the row that
describes part `a` at parameter `p`. -/
structure RightSheet (param : R → F) (part rival : List A → Prop) (quality : A → Quality ℝ) (row : F → A → R)
    (r : RResult F ℝ R) : Prop where
  /-- `Qualities` starts with parameter 0, and its parameters increase strictly and are at most 1. -/
  first : ∃ p, (r.qualities.map QRow.parameter).head? = some p ∧ (FloatP.toK p : ℝ) = 0
  sorted : (r.qualities.map QRow.parameter).Pairwise (fun x y => (FloatP.toK x : ℝ) < FloatP.toK y)
  range : ∀ e ∈ r.qualities, (0 : ℝ) ≤ FloatP.toK e.parameter ∧ (FloatP.toK e.parameter : ℝ) ≤ 1
  /-- `Partitions` is made of the rows of these parameters, in the order of `Qualities`. -/
  grouped : r.partitions = r.qualities.flatMap (fun e => rowsAt param e.parameter r.partitions)
  /-- The rows of a parameter describe a partition, whose gain and loss are those in `Qualities`, in the unit interval; it
  is optimal: no rival has a larger `p * gain - (1-p) * loss`. -/
  rows : ∀ e ∈ r.qualities, ∃ L, part L ∧ rowsAt param e.parameter r.partitions = L.map (row e.parameter) ∧
    e.gain = gainOf quality L ∧ e.loss = lossOf quality L ∧
    0 ≤ e.gain ∧ e.gain ≤ 1 ∧ 0 ≤ e.loss ∧ e.loss ≤ 1 ∧
    ∀ L', rival L' → FloatP.toK e.parameter * gainOf quality L' - FloatP.toK (FloatP.oneSub e.parameter) * lossOf quality L' ≤
      FloatP.toK e.parameter * e.gain - FloatP.toK (FloatP.oneSub e.parameter) * e.loss
  /-- From row to row of `Qualities` gain and loss grow, and at least one of them strictly: no partition occurs twice. -/
  grows : r.qualities.Pairwise (fun e e' => e.gain ≤ e'.gain ∧ e.loss ≤ e'.loss ∧ (e.gain ≠ e'.gain ∨ e.loss ≠ e'.loss))
  /-- `POpt` is a parameter of `Qualities`, and no other one is nearer to gain 1 and loss 0. -/
  opt : ∃ e ∈ r.qualities, e.parameter = r.pOpt ∧
    ∀ e' ∈ r.qualities, (e.gain - 1) ^ 2 + e.loss ^ 2 ≤ (e'.gain - 1) ^ 2 + e'.loss ^ 2
  /-- `AUC` is between 1/2 and 1. -/
  auc : 1 / 2 ≤ r.auc ∧ r.auc ≤ 1

end Lp.Spec

namespace Lp.Spec
open scoped BigOperators
variable {ι A : Type}

/-- Gain over the series `v i j` with `i < a` and `j < b`. -/
noncomputable def gain3 (a b : Nat) (v : Nat → Nat → ι → ℝ) (s : Finset ι) : ℝ :=
  ∑ i ∈ Finset.range a, ∑ j ∈ Finset.range b, gainOver s (v i j)

/-- Loss over the series `v i j` with `i < a` and `j < b`. -/
noncomputable def loss3 (a b : Nat) (v : Nat → Nat → ι → ℝ) (s : Finset ι) : ℝ :=
  ∑ i ∈ Finset.range a, ∑ j ∈ Finset.range b, lossOver s (v i j)

/-- Gain and loss of the part that covers `cells a`, relative to those of all the cells. -/
noncomputable def relative (gain loss : Finset ι → ℝ) (all : Finset ι) (cells : A → Finset ι) (a : A) : Quality ℝ :=
  ⟨gain (cells a) / gain all, loss (cells a) / loss all⟩

end Lp.Spec
