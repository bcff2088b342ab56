import Verif.Model.Partitioner
import Verif.Model.OQualities
import Verif.Model.HQualities
import Verif.Model.DQualities
import Verif.Model.Values

/-!
# The functions exported to R (the C++ code embedded in R/lpaggreg.R)

Simplifications: a data frame is the list of its rows (the code fills one vector per column, all at the same index
`i`); the conversions `long double` → `double` and `float` → `double` of the columns are the identity; an element of
the hierarchy vector is an integer (R passes a `double`).  The conversions are added in `Model/RNumbers.lean`.
-/

namespace Lp
variable {F K P : Type}

/-- An R array with three dimensions: the attribute `dim` and the values, first index fastest. -/
structure RArray (K : Type) where
  d0 : Nat
  d1 : Nat
  d2 : Nat
  mem : List K

/-- `cubeArray(i, j, k)`: an `arma::cube` over the memory of the array (`R/lpaggreg.R:40`) is column-major. -/
def RArray.cube (a : RArray K) (i j k : Nat) : Res K := vget a.mem (i + j * a.d0 + k * (a.d0 * a.d1))

/-- `convertToMicroModel`: `R/lpaggreg.R:37-52`. -/
def convertToMicroModel (a : RArray K) : Res (V3 K) :=
  forUp 0 a.d0 (fun i mm =>
    forUp 0 a.d1 (fun j mm => do
      let row ← vget mm i
      let mm ← vset mm i (row ++ [[]])                  -- line 45
      forUp 0 a.d2 (fun k mm => do
        let row ← vget mm i
        let cell ← vget row j
        let x ← a.cube i j k
        let row ← vset row j (cell ++ [x])              -- line 47
        vset mm i row) mm) (mm ++ [[]])) []             -- line 43

/-- `convertToHierarchy`: `R/lpaggreg.R:54-61`. -/
def convertToHierarchy (h : List Int) : List Int := h.foldl (fun acc x => acc ++ [x - 1]) []

/-- A row of the data frame `Qualities`: `R/lpaggreg.R:97-105`. -/
structure QRow (F K : Type) where
  parameter : F
  gain : K
  loss : K
  deriving DecidableEq, Repr

/-- A row of the data frame `Partitions` of `oaggregate`: `R/lpaggreg.R:80-84`. -/
structure ORow (F K : Type) where
  parameter : F
  start : Int
  «end» : Int
  gain : K
  loss : K
  deriving DecidableEq, Repr

/-- A row of the data frame `Partitions` of `haggregate`: `R/lpaggreg.R:128-132`. -/
structure HRow (F K : Type) where
  parameter : F
  node : Int
  size : Int
  gain : K
  loss : K
  deriving DecidableEq, Repr

/-- A row of the data frame `Partitions` of `daggregate`: `R/lpaggreg.R:178-184`. -/
structure DRow (F K : Type) where
  parameter : F
  node : Int
  size : Int
  start : Int
  «end» : Int
  gain : K
  loss : K
  deriving DecidableEq, Repr

/-- The list returned to R: `R/lpaggreg.R:108`. -/
structure RResult (F K R : Type) where
  partitions : List R
  qualities : List (QRow F K)
  pOpt : F
  auc : K

section
variable [LDLog K] [FloatP F K]

/-- What the three functions do with the partitioner: `R/lpaggreg.R:71-108`, `:119-156`, `:167-210`.  `row` fills the
columns from a tuple.  The range is the default one, from `0.0` to `1.0` (`headers/opartitioner.h:25`,
`headers/hpartitioner.h:24`, `headers/dpartitioner.h:25`); `1.0` is written as `1 - 0`, which `float` arithmetic computes
exactly.  `getP` is called with `P_OPT`, which is 2 (`headers/lpglobal.h:12`). -/
def rSearch {T R : Type} (ops : PartOps F K P T) (row : T → R) (strict : Bool) (fuel : Nat) (randMax : K) (rnd : K → K)
    (threshold : F) : Res (RResult F K R) := do
  let st ← computeBestPartitions ops strict fuel threshold FloatP.zero (FloatP.oneSub FloatP.zero) PState.empty
  let popt ← getP randMax 2 st
  let auc ← computeAUC rnd st
  return ⟨st.tuples.map row, st.qualityList.map (fun e => ⟨e.1, e.2.gain, e.2.loss⟩), popt, auc⟩

/-- `oaggregate(micro, th)`: `R/lpaggreg.R:64-109`.  `OPartitioner(qualities)` dereferences the table. -/
def oaggregate (strict : Bool) (fuel : Nat) (randMax : K) (rnd : K → K) (micro : RArray K) (threshold : F) :
    Res (RResult F K (ORow F K)) := do
  let values := OValuesN3.ofVec (← convertToMicroModel micro)
  let qualities ← (OQualities.ofValues values.toOValues).computeQualities
  let qualities ← qualities.normalize
  match qualities.qualities with
  | none => .error .nullDeref
  | some q =>
    rSearch (oOps (F := F) q) (fun (p, s, e, g, l) => ⟨p, s + 1, e + 1, g, l⟩) strict fuel randMax rnd threshold

/-- `haggregate(micro, h, th)` for the converted hierarchy vector: `R/lpaggreg.R:112-157`. -/
def haggregateIn (strict : Bool) (fuel : Nat) (randMax : K) (rnd : K → K) (micro : RArray K) (hierarchy : List Int) (threshold : F) :
    Res (RResult F K (HRow F K)) := do
  let values ← HValuesN3.ofVec (← convertToMicroModel micro) hierarchy
  let qualities ← (HQualities.ofValues values.toHValues).computeQualities
  let qualities ← qualities.normalize
  match qualities.qualities with
  | none => .error .nullDeref
  | some q =>
    rSearch (hOps (F := F) q qualities.md) (fun (p, n, s, g, l) => ⟨p, (n : Int) + 1, s, g, l⟩) strict fuel randMax rnd
      threshold

/-- `haggregate(micro, h, th)`: `R/lpaggreg.R:112-157`. -/
def haggregate (strict : Bool) (fuel : Nat) (randMax : K) (rnd : K → K) (micro : RArray K) (h : List Int) (threshold : F) :
    Res (RResult F K (HRow F K)) := haggregateIn strict fuel randMax rnd micro (convertToHierarchy h) threshold

/-- `daggregate(micro, h, th)` for the converted hierarchy vector: `R/lpaggreg.R:160-211`. -/
def daggregateIn (strict : Bool) (fuel : Nat) (randMax : K) (rnd : K → K) (micro : RArray K) (hierarchy : List Int) (threshold : F) :
    Res (RResult F K (DRow F K)) := do
  let values ← DValuesN3.ofVec (← convertToMicroModel micro) hierarchy
  let qualities ← (DQualities.ofValues values.toDValues).computeQualities
  let qualities ← qualities.normalize
  match qualities.qualities with
  | none => .error .nullDeref
  | some q =>
    rSearch (dOps (F := F) q qualities.md)
      (fun (p, n, s, a, b, g, l) => ⟨p, (n : Int) + 1, s, (a : Int) + 1, (b : Int) + 1, g, l⟩) strict fuel randMax rnd threshold

/-- `daggregate(micro, h, th)`: `R/lpaggreg.R:160-211`. -/
def daggregate (strict : Bool) (fuel : Nat) (randMax : K) (rnd : K → K) (micro : RArray K) (h : List Int) (threshold : F) :
    Res (RResult F K (DRow F K)) := daggregateIn strict fuel randMax rnd micro (convertToHierarchy h) threshold

end
end Lp
