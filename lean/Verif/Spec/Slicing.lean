import Verif.Model.RSlice

/-!
# Specification: shares of time slices
-/

namespace Lp.Spec
variable {S Y K : Type} [DecidableEq S] [DecidableEq Y] [Field K] [LinearOrder K]

/-- Length of the intersection of the intervals `[a, b]` and `[c, d]`. -/
def overlap (a b c d : K) : K := max 0 (min b d - max a c)

/-- The trace lasts from `first` to `first + total`, its durations are right and non-negative. -/
structure RightTrace (trace : List (TState S Y K)) (first total : K) : Prop where
  firstEx : ∃ r ∈ trace, r.start = first
  firstLe : ∀ r ∈ trace, first ≤ r.start
  lastEx : ∃ r ∈ trace, r.end = first + total
  lastLe : ∀ r ∈ trace, r.end ≤ first + total
  duration : ∀ r ∈ trace, r.duration = r.end - r.start
  order : ∀ r ∈ trace, r.start ≤ r.end
  pos : 0 < total

/-- Beginning of slice `k` of `n` (counted from 0). -/
def sliceAt (first total : K) (n k : Nat) : K := first + (k : K) * (total / (n : K))

/-- Time that resource `s` spends in states `y` during slice `k` of `n`. -/
def timeIn (trace : List (TState S Y K)) (first total : K) (n : Nat) (s : S) (y : Y) (k : Nat) : K :=
  ((trace.filter (fun r => r.resource = s ∧ r.value = y)).map (fun r =>
    overlap r.start r.end (sliceAt first total n k) (sliceAt first total n (k + 1)))).sum

/-- The state overlaps slice `k` of `n`: it ends after the beginning and begins before the end of the slice. -/
def Touches (first total : K) (n : Nat) (r : TState S Y K) (k : Nat) : Prop :=
  k < n ∧ sliceAt first total n k < r.end ∧ r.start < sliceAt first total n (k + 1)

/-- Consecutive states cover the time from `a` to `b`. -/
def Consecutive : K → K → List (TState S Y K) → Prop
  | a, b, [] => a = b
  | a, b, r :: L => r.start = a ∧ r.start ≤ r.end ∧ Consecutive r.end b L

end Lp.Spec
