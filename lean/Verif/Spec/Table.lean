import Mathlib.Logic.Function.Basic

/-!
# Specification: rectangular nested data and histories of writes
-/

namespace Lp.Spec
variable {α : Type}

/-- The vector `f 0, ..., f (n-1)`. -/
def table1 (n : Nat) (f : Nat → α) : List α := (List.range n).map f

/-- Rectangular nested vectors with the given dimensions. -/
def table2 (a b : Nat) (f : Nat × Nat → α) : List (List α) :=
  (List.range a).map fun x => table1 b fun y => f (x, y)
def table3 (a b c : Nat) (f : Nat × Nat × Nat → α) : List (List (List α)) :=
  (List.range a).map fun x => table2 b c fun y => f (x, y)
def table4 (a b c d : Nat) (f : Nat × Nat × Nat × Nat → α) : List (List (List (List α))) :=
  (List.range a).map fun x => table3 b c d fun y => f (x, y)

/-- Value of position `x` after the writes `ws` (in the order in which they are made) to data that were `f`: the
last one written to `x`, the original one if there is none. -/
def lastWritten {ι : Type} [DecidableEq ι] (f : ι → α) (ws : List (ι × α)) (x : ι) : α :=
  match ws.reverse.find? (fun w => decide (w.1 = x)) with
  | some w => w.2
  | none => f x

end Lp.Spec
