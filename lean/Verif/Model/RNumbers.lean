import Verif.Model.RBinding

/-!
# The functions exported to R, with R's own numbers (the C++ code embedded in R/lpaggreg.R)

R has only numbers of type `double` (and 32-bit integers).  The arguments are converted to the types of the library, and the results back.
Simplification: the conversion of a `double` to `int` is not bounded (the real one is undefined outside 32 bits).
-/

namespace Lp

/-- The conversions between R's `double` (type `D`), `float` (type `F`) and `long double` (type `K`), as C++ makes them in `R/lpaggreg.R`. -/
structure RNum (D F K : Type) where
  wide : D → K        -- `double` to `long double`
  narrow : K → D      -- `long double` to `double`
  ofFloat : F → D     -- `float` to `double`
  toFloat : D → F     -- `double` to `float`
  pred : D → D        -- `x - 1` in `double`
  toInt : D → Int     -- `double` to `int`

section
variable {D F K : Type}

/-- The elements of the array are copied as `double` (`R/lpaggreg.R:47`) and become `long double` in the library. -/
def RNum.array (c : RNum D F K) (a : RArray D) : RArray K := ⟨a.d0, a.d1, a.d2, a.mem.map c.wide⟩

/-- `convertToHierarchy` for a vector of `double`: `R/lpaggreg.R:54-61`; the result of `vecArray(i)-1` is converted to `int`. -/
def RNum.hierarchy (c : RNum D F K) (h : List D) : List Int := h.foldl (fun acc x => acc ++ [c.toInt (c.pred x)]) []

/-- The data frame `Qualities`, `POpt` and `AUC` as R gets them: `R/lpaggreg.R:94-108`, `:142-156`, `:196-210`. -/
def RNum.result {R R' : Type} (c : RNum D F K) (row : R → R') (r : RResult F K R) : RResult D D R' :=
  ⟨r.partitions.map row, r.qualities.map (fun e => ⟨c.ofFloat e.parameter, c.narrow e.gain, c.narrow e.loss⟩), c.ofFloat r.pOpt, c.narrow r.auc⟩

/-- A row of `Partitions` of `oaggregate` as R gets it: `R/lpaggreg.R:80-84`. -/
def RNum.oRow (c : RNum D F K) (e : ORow F K) : ORow D D := ⟨c.ofFloat e.parameter, e.start, e.end, c.narrow e.gain, c.narrow e.loss⟩

/-- A row of `Partitions` of `haggregate` as R gets it: `R/lpaggreg.R:128-132`. -/
def RNum.hRow (c : RNum D F K) (e : HRow F K) : HRow D D := ⟨c.ofFloat e.parameter, e.node, e.size, c.narrow e.gain, c.narrow e.loss⟩

/-- A row of `Partitions` of `daggregate` as R gets it: `R/lpaggreg.R:178-184`. -/
def RNum.dRow (c : RNum D F K) (e : DRow F K) : DRow D D :=
  ⟨c.ofFloat e.parameter, e.node, e.size, e.start, e.end, c.narrow e.gain, c.narrow e.loss⟩

variable [LDLog K] [FloatP F K]

/-- `oaggregate(micro, th)` with R's numbers: `R/lpaggreg.R:64-109`. -/
def oaggregateR (c : RNum D F K) (strict : Bool) (fuel : Nat) (randMax : K) (rnd : K → K) (micro : RArray D) (th : D) :
    Res (RResult D D (ORow D D)) := do
  let r ← oaggregate strict fuel randMax rnd (c.array micro) (c.toFloat th)
  return c.result c.oRow r

/-- `haggregate(micro, h, th)` with R's numbers: `R/lpaggreg.R:112-157`. -/
def haggregateR (c : RNum D F K) (strict : Bool) (fuel : Nat) (randMax : K) (rnd : K → K) (micro : RArray D) (h : List D) (th : D) :
    Res (RResult D D (HRow D D)) := do
  let r ← haggregateIn strict fuel randMax rnd (c.array micro) (c.hierarchy h) (c.toFloat th)
  return c.result c.hRow r

/-- `daggregate(micro, h, th)` with R's numbers: `R/lpaggreg.R:160-211`. -/
def daggregateR (c : RNum D F K) (strict : Bool) (fuel : Nat) (randMax : K) (rnd : K → K) (micro : RArray D) (h : List D) (th : D) :
    Res (RResult D D (DRow D D)) := do
  let r ← daggregateIn strict fuel randMax rnd (c.array micro) (c.hierarchy h) (c.toFloat th)
  return c.result c.dRow r

end
end Lp
