import Verif.Model.Quality
import Mathlib.Algebra.Order.Field.Basic
import Mathlib.Algebra.Order.Group.Abs
import Mathlib.Algebra.Order.Ring.Abs
import Mathlib.Tactic.Linarith

/-!
# C35 — equality of qualities

`operator==` is reflexive and symmetric; equal qualities have gains that agree up to the relative precision.  The
losses are not compared (the source tests the gain twice), and the relation is not transitive.
-/

namespace Lp.C35
variable {K : Type} [Field K] [LinearOrder K] [IsStrictOrderedRing K]

omit [IsStrictOrderedRing K] in
theorem cmax_aux (a b : K) : Quality.cmax a b = max a b := by
  unfold Quality.cmax
  change (if a < b then b else a) = max a b
  split
  · rename_i h; exact (max_eq_right h.le).symm
  · rename_i h; exact (max_eq_left (not_lt.mp h)).symm

theorem cabs_aux (a : K) : Quality.cabs a = |a| := by
  unfold Quality.cabs
  change (if a < 0 then 0 - a else a) = |a|
  split
  · rename_i h; rw [abs_of_neg h, zero_sub]
  · rename_i h; rw [abs_of_nonneg (not_lt.mp h)]

/-- What `==` tests: identical, or the gains differ by less than `prec` times the larger of the mean gain and the
mean loss. -/
theorem meaning (prec : K) (q r : Quality K) :
    Quality.eqOp prec q r = true ↔
      q = r ∨ |q.gain - r.gain| < max ((q.gain + r.gain) / 2) ((q.loss + r.loss) / 2) * prec := by
  unfold Quality.eqOp
  have hb : ∀ x y : K, (x == y) = decide (x = y) := fun _ _ => rfl
  have hm : Quality.cmax (q.gain + r.gain) (q.loss + r.loss) / (1 + 1) * prec =
      max ((q.gain + r.gain) / 2) ((q.loss + r.loss) / 2) * prec := by
    rw [cmax_aux, max_div_div_right (by norm_num : (0 : K) ≤ 2)]
    norm_num
  have hab : Quality.cabs (q.gain - r.gain) = |q.gain - r.gain| := cabs_aux _
  simp only [hb, Bool.or_eq_true, Bool.and_eq_true, decide_eq_true_eq, hab]
  rw [hm, and_self]
  apply or_congr _ Iff.rfl
  cases q; cases r; simp

/-- Reflexive, symmetric, and `!=` is the negation. -/
theorem similarity (prec : K) (q r : Quality K) :
    Quality.eqOp prec q q = true ∧ (Quality.eqOp prec q r = Quality.eqOp prec r q) ∧
    (Quality.neOp prec q r = !(Quality.eqOp prec q r)) := by
  refine ⟨(meaning prec q q).mpr (Or.inl rfl), ?_, rfl⟩
  rw [Bool.eq_iff_iff, meaning, meaning, abs_sub_comm, add_comm r.gain, add_comm r.loss, eq_comm]

/-- Equal qualities have gains within the relative precision. -/
theorem gains (prec : K) (hp : 0 ≤ prec) (q r : Quality K) (hq : 0 ≤ q.gain) (hr : 0 ≤ r.gain)
    (h : Quality.eqOp prec q r = true) :
    |q.gain - r.gain| ≤ max ((q.gain + r.gain) / 2) ((q.loss + r.loss) / 2) * prec := by
  rcases (meaning prec q r).mp h with rfl | h
  · rw [sub_self, abs_zero]
    exact mul_nonneg (le_trans (by linarith) (le_max_left _ _)) hp
  · exact h.le

/-- The losses are not compared: with the same gain any two qualities (not both zero, non-negative) are equal. -/
theorem lossIgnored (prec g l l' : K) (hp : 0 < prec) (hg : 0 ≤ g) (hl : 0 ≤ l) (hl' : 0 ≤ l') :
    Quality.eqOp prec ⟨g, l⟩ ⟨g, l'⟩ = true := by
  rw [meaning]
  by_cases he : l = l'
  · left; rw [he]
  · right
    rw [sub_self, abs_zero]
    apply mul_pos _ hp
    apply lt_of_lt_of_le _ (le_max_right _ _)
    simp only
    rcases lt_or_gt_of_ne he with h | h <;> linarith

/-- Not transitive. -/
theorem notTransitive : ∃ a b c : Quality ℚ, Quality.eqOp (1 / 10 ^ 13) a b = true ∧
    Quality.eqOp (1 / 10 ^ 13) b c = true ∧ Quality.eqOp (1 / 10 ^ 13) a c = false :=
  ⟨⟨1, 0⟩, ⟨1, 10 ^ 14⟩, ⟨2, 0⟩, by decide +kernel, by decide +kernel, by decide +kernel⟩

/-- Concrete case with the constant of the program: `(1,0) == (1,5)`, `(1,0) != (2,0)`. -/
example : Quality.eqOp (1 / 10 ^ 13 : ℚ) ⟨1, 0⟩ ⟨1, 5⟩ = true ∧ Quality.eqOp (1 / 10 ^ 13 : ℚ) ⟨1, 0⟩ ⟨2, 0⟩ = false := by
  decide +kernel

/-! ## The hypotheses are met by concrete inputs -/

example := gains (1 / 10 ^ 13 : ℚ) (by norm_num) ⟨3, 5⟩ ⟨3, 4⟩ (by norm_num) (by norm_num) (by decide +kernel)
example := lossIgnored (1 / 10 ^ 13 : ℚ) 3 5 4 (by norm_num) (by norm_num) (by norm_num) (by norm_num)

end Lp.C35
