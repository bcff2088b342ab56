import Verif.Spec.Cover
import Verif.Base.Num
import Verif.Model.Quality
import Mathlib.Algebra.Field.Defs

/-!
# Specification: hierarchies with more levels, and systems made of parts
-/

namespace Lp.Spec

/-- Two hierarchies over the same leaves; every group of leaves that is a node of the first is a node of the second: the second
has the groups of the first and possibly more. -/
def MoreLevels (leaves : Nat) (parents parents' : List Int) : Prop :=
  ∀ h, h < parents.length → ∃ h', h' < parents'.length ∧ ∀ l, l < leaves → (Under parents' h' l ↔ Under parents h l)

/-- A system (`leaves`, `parents`) is made of `c` parts.  Part `i` is a hierarchy of its own, with `size i` leaves and the parent
vector `sub i`; its leaf `x` is the leaf `e i x` of the system.  Every leaf of the system is a leaf of exactly one part, and
every node of a part is, as a group of leaves, a node of the system. -/
structure MadeOf (leaves : Nat) (parents : List Int) (c : Nat) (size : Nat → Nat) (sub : Nat → List Int) (e : Nat → Nat → Nat) :
    Prop where
  lt : ∀ i x, i < c → x < size i → e i x < leaves
  all : ∀ l, l < leaves → ∃ i x, i < c ∧ x < size i ∧ e i x = l
  once : ∀ i j x y, i < c → j < c → x < size i → y < size j → e i x = e j y → i = j ∧ x = y
  node : ∀ i h, i < c → h < (sub i).length → ∃ h', h' < parents.length ∧
    ∀ l, l < leaves → (Under parents h' l ↔ ∃ x, x < size i ∧ e i x = l ∧ Under (sub i) h x)

/-- What a partition of quality `Q` is worth at parameter `p`: `p*gain - (1-p)*loss`, with the weights `p` and `1-p` as the code
computes them. -/
def worth {F K : Type} [Field K] [FloatP F K] (p : F) (Q : Quality K) : K :=
  FloatP.toK p * Q.gain - FloatP.toK (FloatP.oneSub p) * Q.loss

end Lp.Spec
