import Verif.Model.Tradeoff
import Verif.Model.OPartition
import Verif.Proofs.Dp
import Verif.Spec.Value
import Mathlib.Algebra.Order.Monoid.Prod
import Mathlib.Algebra.Order.Group.Synonym
import Mathlib.Algebra.Order.Field.Basic
import Mathlib.Tactic.Linarith
import Mathlib.Tactic.Ring
import Mathlib.Tactic.LinearCombination

/-!
# Tradeoffs in exact arithmetic
-/

namespace Lp
open Spec
variable {F K A : Type} [Field K] [LinearOrder K] [IsStrictOrderedRing K]

/-- The lexicographic objective of `operator>`: value, then gain, then smaller loss. -/
abbrev Obj (K : Type) := K ×ₗ (K ×ₗ K)

/-- Objective of a tradeoff. -/
def ob (t : Tradeoff K) : Obj K := toLex (t.value, toLex (t.gain, -t.loss))

theorem gt_iff (a b : Tradeoff K) : Tradeoff.gt a b = true ↔ ob b < ob a := by
  unfold Tradeoff.gt ob
  rw [Prod.Lex.toLex_lt_toLex, Prod.Lex.toLex_lt_toLex]
  simp only [BEq.beq, Bool.or_eq_true, decide_eq_true_eq, Bool.and_eq_true]
  constructor
  · rintro (h | ⟨h1, h | ⟨h2, h3⟩⟩)
    · exact Or.inl h
    · exact Or.inr ⟨h1.symm, Or.inl h⟩
    · exact Or.inr ⟨h1.symm, Or.inr ⟨h2.symm, neg_lt_neg h3⟩⟩
  · rintro (h | ⟨h1, h | ⟨h2, h3⟩⟩)
    · exact Or.inl h
    · exact Or.inr ⟨h1.symm, Or.inl h⟩
    · exact Or.inr ⟨h1.symm, Or.inr ⟨h2.symm, neg_lt_neg_iff.mp h3⟩⟩

omit [IsStrictOrderedRing K] in
theorem ob_add (a b : Tradeoff K) : ob (a.add b) = ob a + ob b := by
  change toLex (a.value + b.value, toLex (a.gain + b.gain, -(a.loss + b.loss))) =
    toLex (a.value + b.value, toLex (a.gain + b.gain, -a.loss + -b.loss))
  rw [neg_add]

omit [IsStrictOrderedRing K] in
theorem ob_zero : ob (Tradeoff.zero : Tradeoff K) = 0 := by
  change toLex ((0 : K), toLex ((0 : K), -(0 : K))) = toLex ((0 : K), toLex ((0 : K), (0 : K)))
  rw [neg_zero]

section
variable [FloatP F K]

/-- The two weights of the criterion for parameter `p`. -/
def wGain (p : F) : K := FloatP.toK p
/-- See `wGain`. -/
def wLoss (p : F) : K := FloatP.toK (FloatP.oneSub p)

omit [IsStrictOrderedRing K] in
theorem pic_eq (p : F) (g l : K) : Tradeoff.pic p g l = wGain p * g - wLoss p * l := rfl

/-- Objective of a part. -/
def obq (p : F) (q : A → Quality K) (x : A) : Obj K := ob (Tradeoff.set (q x) p)

omit [IsStrictOrderedRing K] in
theorem wsum_obq (p : F) (q : A → Quality K) (L : List A) :
    wsum (obq p q) L =
      toLex (valueOf (wGain p) (wLoss p) q L, toLex (gainOf q L, -lossOf q L)) := by
  induction L with
  | nil =>
    simp only [wsum_nil, valueOf, gainOf_nil, lossOf_nil, mul_zero, sub_zero, neg_zero]
    rfl
  | cons x L ih =>
    rw [wsum_cons, ih]
    change toLex (wGain p * (q x).gain - wLoss p * (q x).loss + valueOf (wGain p) (wLoss p) q L,
      toLex ((q x).gain + gainOf q L, -(q x).loss + -lossOf q L)) = _
    simp only [valueOf, gainOf_cons, lossOf_cons]
    congr 2
    · ring
    · congr 2; ring

/-- Value of a part (the hierarchical partitioner compares values only). -/
def valq (p : F) (q : A → Quality K) (x : A) : K := wGain p * (q x).gain - wLoss p * (q x).loss

omit [IsStrictOrderedRing K] in
theorem wsum_valq (p : F) (q : A → Quality K) (L : List A) :
    wsum (valq p q) L = valueOf (wGain p) (wLoss p) q L := by
  induction L with
  | nil => simp [valueOf]
  | cons x L ih =>
    rw [wsum_cons, ih]
    simp only [valq, valueOf, gainOf_cons, lossOf_cons]
    ring
end

omit [LinearOrder K] [IsStrictOrderedRing K] in
/-- `computeQuality` in exact arithmetic. -/
theorem sumQuality_eq [LinearOrder K] (q : A → Quality K) (L : List A) :
    sumQuality (L.map q) = ⟨gainOf q L, lossOf q L⟩ := by
  have : ∀ (a : Quality K), (L.map q).foldl Quality.add a = ⟨a.gain + gainOf q L, a.loss + lossOf q L⟩ := by
    induction L with
    | nil => intro a; simp
    | cons x L ih =>
      intro a
      simp only [List.map_cons, List.foldl_cons, ih, gainOf_cons, lossOf_cons]
      change (⟨a.gain + (q x).gain + gainOf q L, a.loss + (q x).loss + lossOf q L⟩ : Quality K) = _
      rw [add_assoc, add_assoc]
  unfold sumQuality
  rw [this]
  change (⟨0 + _, 0 + _⟩ : Quality K) = _
  rw [zero_add, zero_add]

end Lp
