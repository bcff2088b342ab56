import Verif.Model.Values
import Verif.Model.OQualities
import Verif.Model.HQualities
import Verif.Model.DQualities

/-!
# Specification: elements of nested vectors whose inner vectors may have different lengths
-/

namespace Lp.Spec
variable {K : Type}

/-- The element `v[a][b]`, if there is one. -/
def at2 (v : V2 K) (a b : Nat) : Option K := v[a]?.bind (fun r => r[b]?)
/-- The element `v[a][b][c]`, if there is one. -/
def at3 (v : V3 K) (a b c : Nat) : Option K := v[a]?.bind (fun r => at2 r b c)
/-- The element `v[a][b][c][d]`, if there is one. -/
def at4 (v : V4 K) (a b c d : Nat) : Option K := v[a]?.bind (fun r => at3 r b c d)

/-- Lengths of `v`, `v[0]`, `v[0][0]` and `v[0][0][0]` (0 if there is no such vector). -/
def len2 {α : Type} (v : List (List α)) : Nat := (v[0]?.getD []).length
def len3 {α : Type} (v : List (List (List α))) : Nat := len2 (v[0]?.getD [])
def len4 {α : Type} (v : List (List (List (List α)))) : Nat := len3 (v[0]?.getD [])

/-- No element is missing in the block spanned by the first inner vectors. -/
def Filled2 (v : V2 K) : Prop := ∀ a b, a < v.length → b < len2 v → (at2 v a b).isSome
def Filled3 (v : V3 K) : Prop := ∀ a b c, a < v.length → b < len2 v → c < len3 v → (at3 v a b c).isSome
def Filled4 (v : V4 K) : Prop :=
  ∀ a b c d, a < v.length → b < len2 v → c < len3 v → d < len4 v → (at4 v a b c d).isSome

/-- Two nested vectors with the same first lengths and the same elements in the block. -/
def SameBlock2 (v w : V2 K) : Prop := v.length = w.length ∧ len2 v = len2 w ∧
  ∀ a b, a < v.length → b < len2 v → at2 v a b = at2 w a b
def SameBlock3 (v w : V3 K) : Prop := v.length = w.length ∧ len2 v = len2 w ∧ len3 v = len3 w ∧
  ∀ a b c, a < v.length → b < len2 v → c < len3 v → at3 v a b c = at3 w a b c
def SameBlock4 (v w : V4 K) : Prop := v.length = w.length ∧ len2 v = len2 w ∧ len3 v = len3 w ∧ len4 v = len4 w ∧
  ∀ a b c d, a < v.length → b < len2 v → c < len3 v → d < len4 v → at4 v a b c d = at4 w a b c d

/-- The qualities that `computeQualities()` gives for a container. -/
def oComputed [LDLog K] (v : OValues K) : Res (Option (UTM (Quality K))) :=
  ((OQualities.ofValues v).computeQualities).map OQualities.qualities
def hComputed [LDLog K] (v : HValues K) : Res (Option (List (Quality K))) :=
  ((HQualities.ofValues v).computeQualities).map HQualities.qualities
def dComputed [LDLog K] (v : DValues K) : Res (Option (List (UTM (Quality K)))) :=
  ((DQualities.ofValues v).computeQualities).map DQualities.qualities

end Lp.Spec
