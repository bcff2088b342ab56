import Verif.Model.DPartition
import Verif.Model.Values

/-!
# Aggregation classes (sources/oaggregation*.cpp, haggregation*.cpp, daggregation*.cpp)

The aggregates are computed in `double`; here in the same type `K` as everything else (simplification: the rounding
of `double` is not distinguished from that of `long double`).
-/

namespace Lp
variable {K : Type} [LDLog K]

/-- An aggregate object: the part it describes (`OAggregate`, `HAggregate`, `DAggregate`:
`headers/oaggregation.h:12-20`, `headers/haggregation.h`, `headers/daggregation.h`) and its two vectors
`sum` and `mean`. -/
structure Aggregate (P α : Type) where
  part : P
  sum : α
  mean : α
  deriving DecidableEq, Repr

/-- `for (o=start; o<=end; o++) sum += f(o)`: `sources/oaggregationn.cpp:11-13,37-39,67-69,101-103` and
`sources/daggregationn.cpp:12-14,50-52,91-93`. -/
def sumRange (f : Nat → Res K) (start «end» : Nat) : Res K :=
  forUp start («end» + 1) (fun o s => do let x ← f o; return s + x) 0

/-- `push_back` loop `for (i=0; i<n; i++) v.push_back(f(i))`. -/
def build {α : Type} (n : Nat) (f : Nat → Res α) : Res (List α) :=
  forUp 0 n (fun i l => do let x ← f i; return l ++ [x]) []

/-- Constructors `OAggregationN1..4`, `HAggregationN1..4`, `DAggregationN2..4`: one aggregate per part, in order:
`sources/oaggregationn.cpp:120-125,132-137,144-149,156-161`, `sources/haggregationn.cpp:154-159,166-171,178-183,190-195`,
`sources/daggregationn.cpp:122-127,134-139,146-151`. -/
def aggregation {P α : Type} (agg : P → Res α) (parts : List P) : Res (List α) :=
  forEach (fun p l => do let a ← agg p; return l ++ [a]) parts []

/-! ## Ordered -/

/-- One number of an ordered aggregate with its mean: `sources/oaggregationn.cpp:10-14,34-40,63-71,97-104`.
The loop variable is an `int` used as an index. -/
def oAggCell (f : Nat → Res K) (part : OPart K) : Res (K × K) := do
  let s ← toIdx part.start
  let e ← toIdx part.end
  let sum ← sumRange f s e
  return (sum, sum / LDLog.ofInt part.getSize)

/-- `OAggregateN1`: `sources/oaggregationn.cpp:3-15`. -/
def oAggregateN1 (c : OValuesN1 K) (part : OPart K) : Res (Aggregate (OPart K) K) := do
  let x ← oAggCell (fun o => c.read o) part
  return ⟨part, x.1, x.2⟩

/-- `OAggregateN2`: `sources/oaggregationn.cpp:27-42`. -/
def oAggregateN2 (c : OValuesN2 K) (part : OPart K) : Res (Aggregate (OPart K) (List K)) := do
  let x ← build c.vsize (fun i => oAggCell (fun o => c.read i o) part)
  return ⟨part, x.map Prod.fst, x.map Prod.snd⟩

/-- `OAggregateN3`: `sources/oaggregationn.cpp:54-73`. -/
def oAggregateN3 (c : OValuesN3 K) (part : OPart K) : Res (Aggregate (OPart K) (List (List K))) := do
  let x ← build c.i (fun i => build c.j (fun j => oAggCell (fun o => c.read i j o) part))
  return ⟨part, x.map (List.map Prod.fst), x.map (List.map Prod.snd)⟩

/-- `OAggregateN4`: `sources/oaggregationn.cpp:85-108`. -/
def oAggregateN4 (c : OValuesN4 K) (part : OPart K) : Res (Aggregate (OPart K) (List (List (List K)))) := do
  let x ← build c.i (fun i => build c.j (fun j => build c.k (fun k => oAggCell (fun o => c.read i j k o) part)))
  return ⟨part, x.map (List.map (List.map Prod.fst)), x.map (List.map (List.map Prod.snd))⟩

/-! ## Hierarchical -/

/-- `subSum(h)`: `sources/haggregationn.cpp:15-25,50-60,89-99,132-142` and
`sources/daggregationn.cpp:18-28,57-67,100-110`.  Note `getChildren()[part.getH()]`, not
`getChildren()[h]`. `f h` is the value of leaf `h`; the recursion is bounded by a budget. -/
def subSum (md : HMeta) (partH : Nat) (f : Nat → Res K) : Nat → Nat → Res K
  | 0, _ => .error .outOfFuel
  | fuel + 1, h =>
    if h < md.leaveSize then f h
    else do
      let ch ← vget md.children partH
      forEach (fun c s => do let x ← subSum md partH f fuel c; return s + x) ch 0

/-- One number of a hierarchical aggregate with its mean: `sources/haggregationn.cpp:10-12,45-46,82-83,123-124`. -/
def hAggCell (fuel : Nat) (md : HMeta) (f : Nat → Res K) (part : HPart K) : Res (K × K) := do
  let sum ← subSum md part.h f fuel md.root
  return (sum, sum / LDLog.ofInt part.size)

/-- `HAggregateN1`: `sources/haggregationn.cpp:3-13`. -/
def hAggregateN1 (fuel : Nat) (c : HValuesN1 K) (part : HPart K) : Res (Aggregate (HPart K) K) := do
  let x ← hAggCell fuel c.md (fun h => c.read h) part
  return ⟨part, x.1, x.2⟩

/-- `HAggregateN2`: `sources/haggregationn.cpp:37-48`. -/
def hAggregateN2 (fuel : Nat) (c : HValuesN2 K) (part : HPart K) : Res (Aggregate (HPart K) (List K)) := do
  let x ← build c.vsize (fun i => hAggCell fuel c.md (fun h => c.read h i) part)
  return ⟨part, x.map Prod.fst, x.map Prod.snd⟩

/-- `HAggregateN3`: `sources/haggregationn.cpp:72-87`. -/
def hAggregateN3 (fuel : Nat) (c : HValuesN3 K) (part : HPart K) : Res (Aggregate (HPart K) (List (List K))) := do
  let x ← build c.i (fun i => build c.j (fun j => hAggCell fuel c.md (fun h => c.read h i j) part))
  return ⟨part, x.map (List.map Prod.fst), x.map (List.map Prod.snd)⟩

/-- `HAggregateN4`: `sources/haggregationn.cpp:111-130`. -/
def hAggregateN4 (fuel : Nat) (c : HValuesN4 K) (part : HPart K) :
    Res (Aggregate (HPart K) (List (List (List K)))) := do
  let x ← build c.i (fun i => build c.j (fun j => build c.k (fun k =>
    hAggCell fuel c.md (fun h => c.read h i j k) part)))
  return ⟨part, x.map (List.map (List.map Prod.fst)), x.map (List.map (List.map Prod.snd))⟩

/-! ## Spatiotemporal -/

/-- One number of a spatiotemporal aggregate with its mean: `sources/daggregationn.cpp:11-15,47-53,88-94`. -/
def dAggCell (fuel : Nat) (md : HMeta) (f : Nat → Nat → Res K) (part : DPart K) : Res (K × K) := do
  let sum ← sumRange (fun o => subSum md part.h (fun h => f h o) fuel md.root) part.start part.end
  return (sum, sum / LDLog.ofInt part.getSize)

/-- `DAggregateN2`: `sources/daggregationn.cpp:4-16`. -/
def dAggregateN2 (fuel : Nat) (c : DValuesN2 K) (part : DPart K) : Res (Aggregate (DPart K) K) := do
  let x ← dAggCell fuel c.md (fun h o => c.read h o) part
  return ⟨part, x.1, x.2⟩

/-- `DAggregateN3`: `sources/daggregationn.cpp:40-55`. -/
def dAggregateN3 (fuel : Nat) (c : DValuesN3 K) (part : DPart K) : Res (Aggregate (DPart K) (List K)) := do
  let x ← build c.vsize (fun i => dAggCell fuel c.md (fun h o => c.read h i o) part)
  return ⟨part, x.map Prod.fst, x.map Prod.snd⟩

/-- `DAggregateN4`: `sources/daggregationn.cpp:79-98`. -/
def dAggregateN4 (fuel : Nat) (c : DValuesN4 K) (part : DPart K) :
    Res (Aggregate (DPart K) (List (List K))) := do
  let x ← build c.i (fun i => build c.j (fun j => dAggCell fuel c.md (fun h o => c.read h i j o) part))
  return ⟨part, x.map (List.map Prod.fst), x.map (List.map Prod.snd)⟩

end Lp
