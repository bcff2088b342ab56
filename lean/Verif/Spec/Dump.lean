import Verif.Model.RParse

/-!
# Specification: what the lines of a dump say

Fields of a line after its nature, from 0: container, type, start, end, duration, then the name of a container, the value of a
counter or the depth of a state, then the value of a state.
-/

namespace Lp.Spec
variable {N K : Type} [LinearOrder N] [Field K] [LinearOrder K]

/-- The text in field `k`; the fields that a line does not have are empty. -/
def textAt (T : Texts N K) (l : Line N) (k : Nat) : N := if h : k < l.fields.length then l.fields[k] else T.blank

/-- Field `k` is a text other than a number. -/
def IsText (T : Texts N K) (k : Nat) (l : Line N) : Prop := textAt T l k ≠ T.blank ∧ T.num (textAt T l k) = none

/-- Field `k` is the number `x`. -/
def IsNum (T : Texts N K) (k : Nat) (l : Line N) (x : K) : Prop := textAt T l k ≠ T.blank ∧ T.num (textAt T l k) = some x

/-- Field `k` is a number in the notation that R writes. -/
def Canonical (T : Texts N K) (k : Nat) (l : Line N) : Prop := ∃ x, IsNum T k l x ∧ T.fmt x = textAt T l k

/-- R keeps field `k` of the lines of a nature as it is: some line has a text in it, or those lines have numbers in the notation
of R. -/
def Kept (T : Texts N K) (lines : List (Line N)) (nature : Nature) (k : Nat) : Prop :=
  (∃ l ∈ lines, IsText T k l) ∨ ∀ l ∈ lines, l.nature = nature → Canonical T k l

/-- The line of a state says `r`. -/
structure SaysState (T : Texts N K) (l : Line N) (r : TState N N K) : Prop where
  resource : textAt T l 0 = r.resource
  start : IsNum T 2 l r.start
  «end» : IsNum T 3 l r.end
  duration : IsNum T 4 l r.duration
  value : textAt T l 6 = r.value

/-- The line of a counter says `r`. -/
structure SaysCounter (T : Texts N K) (l : Line N) (r : TCounter N N K) : Prop where
  resource : textAt T l 0 = r.resource
  type : textAt T l 1 = r.value.1
  start : IsNum T 2 l r.start
  «end» : IsNum T 3 l r.end
  duration : IsNum T 4 l r.duration
  value : IsNum T 5 l r.value.2

/-- The line of a container says `c`. -/
structure SaysContainer (T : Texts N K) (l : Line N) (c : Container N) : Prop where
  parent : textAt T l 0 = c.parent
  resource : textAt T l 5 = c.resource

/-- The lines of a nature, one by one and in order, say the rows. -/
def Say {α : Type} (rel : Line N → α → Prop) (nature : Nature) (lines : List (Line N)) (rows : List α) : Prop :=
  List.Forall₂ rel (lines.filter (fun l => l.nature = nature)) rows

/-- The times of all the lines (fields 2 to 4) are numbers or missing. -/
def Times (T : Texts N K) (lines : List (Line N)) : Prop :=
  ∀ l ∈ lines, ∀ k ∈ [2, 3, 4], ¬ IsText T k l

end Lp.Spec
