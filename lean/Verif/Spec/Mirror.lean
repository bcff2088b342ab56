import Verif.Spec.Tiling

/-!
# Specification: reversing the order of the elements
-/

namespace Lp.Spec

/-- The interval `[a, b]` of `0..n-1` seen from the other end. -/
def flip (n : Nat) (I : Nat × Nat) : Nat × Nat := (n - 1 - I.2, n - 1 - I.1)

/-- The intervals seen from the other end, in the reversed order. -/
def mirror (n : Nat) (L : List (Nat × Nat)) : List (Nat × Nat) := (L.map (flip n)).reverse

end Lp.Spec
