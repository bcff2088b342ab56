import Verif.Proofs.SearchList
import Verif.Proofs.Mirror
import Mathlib.Tactic.Linarith

/-!
# How much value a search with a threshold can miss
-/

namespace Lp
open Spec
variable {F K P T : Type} [Field K] [LinearOrder K] [IsStrictOrderedRing K] [FloatP F K] {u : K}

/-- One of two products is at most a quarter of the product of the sums. -/
theorem min_quarter {a b c d : K} (ha : 0 ≤ a) (hb : 0 ≤ b) (hc : 0 ≤ c) (hd : 0 ≤ d) :
    a * c ≤ (a + b) * (c + d) / 4 ∨ b * d ≤ (a + b) * (c + d) / 4 := by
  by_contra h
  push Not at h
  obtain ⟨h1, h2⟩ := h
  have hM : 0 ≤ (a + b) * (c + d) / 4 := by positivity
  have h3 : (a + b) * (c + d) / 4 * ((a + b) * (c + d) / 4) < a * c * (b * d) :=
    mul_lt_mul'' h1 h2 hM hM
  have h4 : 4 * (a * b) ≤ (a + b) * (a + b) := by nlinarith [mul_self_nonneg (a - b)]
  have h5 : 4 * (c * d) ≤ (c + d) * (c + d) := by nlinarith [mul_self_nonneg (c - d)]
  have h6 : 4 * (a * b) * (4 * (c * d)) ≤ (a + b) * (a + b) * ((c + d) * (c + d)) :=
    mul_le_mul h4 h5 (by positivity) (mul_self_nonneg _)
  nlinarith

omit [IsStrictOrderedRing K] in
/-- A number between the ends of a chain is an element or lies between two consecutive ones. -/
theorem chain_betweenK {R : F → F → Prop} {p : K} : ∀ (l : List F) (a b : F),
    List.IsChain R (a :: l ++ [b]) → (num a : K) ≤ p → p ≤ num b →
    (∃ x ∈ a :: l ++ [b], (num x : K) = p) ∨
      ∃ x ∈ a :: l ++ [b], ∃ y ∈ a :: l ++ [b], R x y ∧ (num x : K) < p ∧ p < num y := by
  intro l
  induction l with
  | nil =>
    intro a b hc ha hb
    rcases lt_or_eq_of_le ha with ha | ha
    · rcases lt_or_eq_of_le hb with hb | hb
      · right
        simp at hc
        exact ⟨a, by simp, b, by simp, hc, ha, hb⟩
      · left; exact ⟨b, by simp, hb.symm⟩
    · left; exact ⟨a, by simp, ha⟩
  | cons c l ih =>
    intro a b hc ha hb
    simp only [List.cons_append, List.isChain_cons_cons] at hc
    rcases lt_or_ge p (num c : K) with hpc | hpc
    · rcases lt_or_eq_of_le ha with ha | ha
      · right; exact ⟨a, by simp, c, by simp, hc.1, ha, hpc⟩
      · left; exact ⟨a, by simp, ha⟩
    · rcases ih c b (by simpa using hc.2) hpc hb with ⟨x, hx, e⟩ | ⟨x, hx, y, hy, r⟩
      · left; exact ⟨x, by simp at hx ⊢; tauto, e⟩
      · right; exact ⟨x, by simp at hx ⊢; tauto, y, by simp at hy ⊢; tauto, r⟩

/-- A rival that is not better at `x` with the rounded weights is at `p` better by at most so much. -/
theorem regret_at {x w p e Λ : K} {r q : Quality K} (hw : |w - (1 - x)| ≤ e) (hΛ : |r.loss - q.loss| ≤ Λ) (he : 0 ≤ e)
    (h : x * r.gain - w * r.loss ≤ x * q.gain - w * q.loss) :
    p * r.gain - (1 - p) * r.loss ≤ p * q.gain - (1 - p) * q.loss + (p - x) * ((r.gain + r.loss) - (q.gain + q.loss)) + e * Λ := by
  have h1 : (w - (1 - x)) * (r.loss - q.loss) ≤ e * Λ := by
    refine le_trans (le_abs_self _) ?_
    rw [abs_mul]
    exact mul_le_mul hw hΛ (abs_nonneg _) he
  nlinarith

end Lp
