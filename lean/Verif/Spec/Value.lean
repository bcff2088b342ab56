import Verif.Model.Quality
import Mathlib.Algebra.BigOperators.Group.List.Basic

/-!
# Specification: gain, loss and value of a set of parts
-/

namespace Lp.Spec
variable {K A : Type} [Field K]

/-- Total gain of a list of parts whose qualities are given by `q`. -/
def gainOf (q : A → Quality K) (L : List A) : K := (L.map (fun x => (q x).gain)).sum

/-- Total loss of a list of parts. -/
def lossOf (q : A → Quality K) (L : List A) : K := (L.map (fun x => (q x).loss)).sum

/-- The criterion `a*gain - b*loss`; the code uses `a = p` and `b = 1-p`. -/
def valueOf (a b : K) (q : A → Quality K) (L : List A) : K := a * gainOf q L - b * lossOf q L

@[simp] theorem gainOf_nil (q : A → Quality K) : gainOf q [] = 0 := rfl
@[simp] theorem lossOf_nil (q : A → Quality K) : lossOf q [] = 0 := rfl
@[simp] theorem gainOf_cons (q : A → Quality K) (x : A) (L : List A) :
    gainOf q (x :: L) = (q x).gain + gainOf q L := by simp [gainOf]
@[simp] theorem lossOf_cons (q : A → Quality K) (x : A) (L : List A) :
    lossOf q (x :: L) = (q x).loss + lossOf q L := by simp [lossOf]
@[simp] theorem gainOf_append (q : A → Quality K) (L M : List A) :
    gainOf q (L ++ M) = gainOf q L + gainOf q M := by simp [gainOf]
@[simp] theorem lossOf_append (q : A → Quality K) (L M : List A) :
    lossOf q (L ++ M) = lossOf q L + lossOf q M := by simp [lossOf]

end Lp.Spec
