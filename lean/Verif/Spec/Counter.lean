import Verif.Spec.Slicing
import Verif.Model.RCounter
import Mathlib.Algebra.BigOperators.Group.Finset.Basic

/-!
# Specification: counters

A counter is the value of one type on one resource; each row of the trace is a reading of a counter.
-/

namespace Lp.Spec
variable {S Y K : Type} [LinearOrder S] [LinearOrder Y] [Field K] [LinearOrder K]

/-- The readings of counter `y` of resource `s`, in the order of the trace. -/
def readings (trace : List (TCounter S Y K)) (s : S) (y : Y) : List (TCounter S Y K) :=
  trace.filter (fun r => r.resource = s ∧ r.value.1 = y)

/-- What is counted: for each reading but the last one the beginning and the end of its interval, and the value of the next reading. -/
def pieces (trace : List (TCounter S Y K)) (s : S) (y : Y) : List (K × K × K) :=
  ((readings trace s y).zip (readings trace s y).tail).map (fun x => (x.1.start, x.1.end, x.2.value.2))

/-- Time during slice `k` of `n` in which the counter is known. -/
def watched (trace : List (TCounter S Y K)) (first total : K) (n : Nat) (s : S) (y : Y) (k : Nat) : K :=
  ((pieces trace s y).map (fun x => overlap x.1 x.2.1 (sliceAt first total n k) (sliceAt first total n (k + 1)))).sum

/-- What is counted during slice `k` of `n`: each value spread evenly over its interval. -/
def counted (trace : List (TCounter S Y K)) (first total : K) (n : Nat) (s : S) (y : Y) (k : Nat) : K :=
  ((pieces trace s y).map (fun x => x.2.2 *
    (overlap x.1 x.2.1 (sliceAt first total n k) (sliceAt first total n (k + 1)) / (x.2.1 - x.1)))).sum

/-- Mean of the counter, per unit of time, during slice `k` of `n`: 0 if the counter is unknown or its mean negative. -/
def meanIn (trace : List (TCounter S Y K)) (first total : K) (n : Nat) (s : S) (y : Y) (k : Nat) : K :=
  max 0 (counted trace first total n s y k / watched trace first total n s y k)

/-- Sum of the means of the counters `y` of all the resources during all the slices. -/
def meansOf (trace : List (TCounter S Y K)) (first total : K) (n : Nat) (y : Y) : K :=
  (((trace.map (fun r => r.resource)).dedup).map (fun s => ∑ k ∈ Finset.range n, meanIn trace first total n s y k)).sum

/-- All that the counters `y` count: their readings except the first one of each resource. -/
def countedAll (trace : List (TCounter S Y K)) (y : Y) : K :=
  (((trace.map (fun r => r.resource)).dedup).map (fun s => ((readings trace s y).tail.map (fun r => r.value.2)).sum)).sum

/-- The trace lasts from `first` to `first + total`; durations are right; the intervals that count have a length. -/
structure RightCounters (trace : List (TCounter S Y K)) (first total : K) : Prop where
  firstEx : ∃ r ∈ trace, r.start = first
  firstLe : ∀ r ∈ trace, first ≤ r.start
  lastEx : ∃ r ∈ trace, r.end = first + total
  lastLe : ∀ r ∈ trace, r.end ≤ first + total
  duration : ∀ r ∈ trace, r.duration = r.end - r.start
  length : ∀ s y, ∀ x ∈ pieces trace s y, x.1 < x.2.1
  pos : 0 < total

/-- Consecutive pieces cover the time from `a` to `b`. -/
def Covers : K → K → List (K × K × K) → Prop
  | a, b, [] => a = b
  | a, b, x :: L => x.1 = a ∧ x.1 ≤ x.2.1 ∧ Covers x.2.1 b L

end Lp.Spec
