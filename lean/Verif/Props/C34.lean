import Verif.Model.Tradeoff
import Verif.Spec.Float
import Mathlib.Tactic.Linarith

/-!
# C34 — the comparison operators of `Tradeoff`
-/

namespace Lp.C34
variable {K : Type} [Field K] [LinearOrder K]

/-- `a` is better than `b`: larger value, or the same value and larger gain, or the same value and gain and
smaller loss. -/
def Better (a b : Tradeoff K) : Prop :=
  b.value < a.value ∨ (a.value = b.value ∧ (b.gain < a.gain ∨ (a.gain = b.gain ∧ a.loss < b.loss)))

/-- `>` is `Better`, `<=` is its negation. -/
theorem greater (a b : Tradeoff K) : (Tradeoff.gt a b = true ↔ Better a b) ∧ (Tradeoff.le a b = true ↔ ¬ Better a b) := by
  have h : Tradeoff.gt a b = true ↔ Better a b := by
    have hb : ∀ x y : K, (x == y) = decide (x = y) := fun _ _ => rfl
    simp [Tradeoff.gt, Better, hb]
  refine ⟨h, ?_⟩
  unfold Tradeoff.le
  rw [← h]
  simp

/-- `>` is a strict linear order on (value, gain, loss). -/
theorem strictOrder (a b c : Tradeoff K) :
    Tradeoff.gt a a = false ∧
    (Tradeoff.gt a b = true → Tradeoff.gt b c = true → Tradeoff.gt a c = true) ∧
    (Tradeoff.gt a b = true → Tradeoff.gt b a = false) ∧
    (Tradeoff.gt a b = true ∨ a = b ∨ Tradeoff.gt b a = true) := by
  have h := fun x y : Tradeoff K => (greater x y).1
  have irr : ∀ x : Tradeoff K, ¬ Better x x := by intro x; simp [Better]
  have tr : ∀ x y z : Tradeoff K, Better x y → Better y z → Better x z := by
    intro x y z h1 h2
    rcases h1 with h1 | ⟨e1, h1⟩ <;> rcases h2 with h2 | ⟨e2, h2⟩
    · exact Or.inl (lt_trans h2 h1)
    · exact Or.inl (e2 ▸ h1)
    · exact Or.inl (e1.symm ▸ h2)
    · refine Or.inr ⟨e1.trans e2, ?_⟩
      rcases h1 with h1 | ⟨f1, h1⟩ <;> rcases h2 with h2 | ⟨f2, h2⟩
      · exact Or.inl (lt_trans h2 h1)
      · exact Or.inl (f2 ▸ h1)
      · exact Or.inl (f1.symm ▸ h2)
      · exact Or.inr ⟨f1.trans f2, lt_trans h1 h2⟩
  refine ⟨?_, ?_, ?_, ?_⟩
  · rw [Bool.eq_false_iff]; intro e; exact irr a ((h a a).mp e)
  · rw [h, h, h]; exact tr a b c
  · rw [h, Bool.eq_false_iff, Ne, h]; intro h1 h2; exact irr a (tr a b a h1 h2)
  · rw [h, h]
    rcases lt_trichotomy a.value b.value with h1 | h1 | h1
    · exact Or.inr (Or.inr (Or.inl h1))
    · rcases lt_trichotomy a.gain b.gain with h2 | h2 | h2
      · exact Or.inr (Or.inr (Or.inr ⟨h1.symm, Or.inl h2⟩))
      · rcases lt_trichotomy a.loss b.loss with h3 | h3 | h3
        · exact Or.inl (Or.inr ⟨h1, Or.inr ⟨h2, h3⟩⟩)
        · refine Or.inr (Or.inl ?_)
          cases a; cases b; simp_all
        · exact Or.inr (Or.inr (Or.inr ⟨h1.symm, Or.inr ⟨h2.symm, h3⟩⟩))
      · exact Or.inl (Or.inr ⟨h1, Or.inl h2⟩)
    · exact Or.inl (Or.inl h1)

/-- Adding the same tradeoff to both sides does not change the comparison. -/
theorem addCompatible [IsStrictOrderedRing K] (a b c : Tradeoff K) :
    Tradeoff.gt (Tradeoff.add a c) (Tradeoff.add b c) = Tradeoff.gt a b := by
  rw [Bool.eq_iff_iff, (greater _ _).1, (greater _ _).1]
  unfold Better Tradeoff.add
  have e1 : ∀ x y z : K, (HAdd.hAdd x z : K) < HAdd.hAdd y z ↔ x < y := fun x y z => add_lt_add_iff_right z
  have e2 : ∀ x y z : K, (HAdd.hAdd x z : K) = HAdd.hAdd y z ↔ x = y := fun x y z => add_left_inj z
  exact or_congr (e1 _ _ _) (and_congr (e2 _ _ _) (or_congr (e1 _ _ _) (and_congr (e2 _ _ _) (e1 _ _ _))))

/-- `<`, `>=`, `==`, `!=` look at the values only. -/
theorem valueOnly (a b : Tradeoff K) :
    (Tradeoff.lt a b = true ↔ a.value < b.value) ∧ (Tradeoff.ge a b = true ↔ b.value ≤ a.value) ∧
    (Tradeoff.eqOp a b = true ↔ a.value = b.value) ∧ (Tradeoff.neOp a b = true ↔ a.value ≠ b.value) := by
  have hb : ∀ x y : K, (x == y) = decide (x = y) := fun _ _ => rfl
  have hlt : Tradeoff.lt a b = true ↔ a.value < b.value := by
    unfold Tradeoff.lt Tradeoff.gt Tradeoff.eqOp
    rw [hb]
    rcases lt_trichotomy a.value b.value with h | h | h
    · simp [h.ne, h, h.le]
    · simp [h]
    · simp [h, h.le]
  refine ⟨hlt, ?_, ?_, ?_⟩
  · unfold Tradeoff.ge
    rw [← not_lt, ← hlt]; simp
  · unfold Tradeoff.eqOp; rw [hb]; simp
  · unfold Tradeoff.neOp; rw [hb]; simp

/-- `a < b` is `b > a` exactly when the values differ or nothing decides: on a tie of the values `b > a` may hold
while `a < b` does not. -/
theorem asymmetric (a b : Tradeoff K) :
    (Tradeoff.lt a b = true → Tradeoff.gt b a = true) ∧
    (Tradeoff.gt b a = true → Tradeoff.lt a b = false → a.value = b.value) := by
  rw [(greater b a).1, (valueOnly a b).1, Bool.eq_false_iff, Ne, (valueOnly a b).1]
  refine ⟨Or.inl, ?_⟩
  intro h1 h2
  rcases h1 with h1 | ⟨h1, _⟩
  · exact absurd h1 h2
  · exact h1.symm

/-! ## Concrete cases -/

example : Tradeoff.gt (⟨1, 3, 2⟩ : Tradeoff ℚ) ⟨1, 2, 1⟩ = true ∧ Tradeoff.lt (⟨1, 2, 1⟩ : Tradeoff ℚ) ⟨1, 3, 2⟩ = false := by
  decide +kernel
example : Tradeoff.gt (⟨1, 2, 1⟩ : Tradeoff ℚ) ⟨1, 2, 3⟩ = true ∧ Tradeoff.le (⟨1, 2, 3⟩ : Tradeoff ℚ) ⟨1, 2, 1⟩ = true := by
  decide +kernel

end Lp.C34
