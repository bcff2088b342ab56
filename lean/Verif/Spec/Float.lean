import Verif.Base.Num
import Mathlib.Algebra.Order.Ring.Abs
import Mathlib.Tactic.Linarith

/-!
# Specification: what is assumed of the `float` parameter arithmetic

`FloatLaws F K u`: the finite `float`s (type `F`, without `-0` and NaN) are numbers of the ordered field `K`;
`1-p` is rounded monotonically and exact at 0 and 1; differences, halves and sums in `[0,1]` have absolute
error at most `u`; differences are rounded monotonically; the midpoint lies between the ends.  Exact arithmetic is an instance with `u = 0` (`exactLaws`); IEEE binary32 with every
monotone rounding is treated in `Spec/Binary.lean`.
-/

namespace Lp
variable {K : Type} [Field K] [LinearOrder K]

/-- Laws of the parameter arithmetic used by the theorems. -/
structure FloatLaws (F K : Type) [Field K] [LinearOrder K] [FloatP F K] (u : K) : Prop where
  lt_iff : ∀ a b : F, FloatP.lt a b = true ↔ (FloatP.toK a : K) < FloatP.toK b
  inj : ∀ a b : F, (FloatP.toK a : K) = FloatP.toK b → a = b
  zero : (FloatP.toK (FloatP.zero : F) : K) = 0
  oneSub_anti : ∀ a b : F, (FloatP.toK a : K) ≤ FloatP.toK b →
    (FloatP.toK (FloatP.oneSub b) : K) ≤ FloatP.toK (FloatP.oneSub a)
  oneSub_pos : ∀ a : F, (FloatP.toK a : K) < 1 → (0 : K) < FloatP.toK (FloatP.oneSub a)
  oneSub_zero : ∀ a : F, (FloatP.toK a : K) = 0 → (FloatP.toK (FloatP.oneSub a) : K) = 1
  oneSub_one : ∀ a : F, (FloatP.toK a : K) = 1 → (FloatP.toK (FloatP.oneSub a) : K) = 0
  err_nonneg : 0 ≤ u
  sub_err : ∀ a b : F, (0 : K) ≤ FloatP.toK a → (FloatP.toK a : K) ≤ FloatP.toK b →
    (FloatP.toK b : K) ≤ 1 → |(FloatP.toK (FloatP.sub b a) : K) - (FloatP.toK b - FloatP.toK a)| ≤ u
  half_err : ∀ a : F, (0 : K) ≤ FloatP.toK a → (FloatP.toK a : K) ≤ 1 →
    |(FloatP.toK (FloatP.half a) : K) - FloatP.toK a / 2| ≤ u
  add_err : ∀ a b : F, (0 : K) ≤ FloatP.toK a → (FloatP.toK a : K) ≤ 1 → (0 : K) ≤ FloatP.toK b →
    (FloatP.toK b : K) ≤ 1 → (FloatP.toK a : K) + FloatP.toK b ≤ 2 →
    |(FloatP.toK (FloatP.add a b) : K) - (FloatP.toK a + FloatP.toK b)| ≤ u
  sub_nonneg : ∀ a b : F, (0 : K) ≤ FloatP.toK a → (FloatP.toK a : K) ≤ FloatP.toK b →
    (FloatP.toK b : K) ≤ 1 → (0 : K) ≤ FloatP.toK (FloatP.sub b a) ∧ (FloatP.toK (FloatP.sub b a) : K) ≤ 1
  half_nonneg : ∀ a : F, (0 : K) ≤ FloatP.toK a → (FloatP.toK a : K) ≤ 1 →
    (0 : K) ≤ FloatP.toK (FloatP.half a) ∧ (FloatP.toK (FloatP.half a) : K) ≤ 1
  sub_mono : ∀ a b a' b' : F, (FloatP.toK b - FloatP.toK a : K) ≤ FloatP.toK b' - FloatP.toK a' →
    (FloatP.toK (FloatP.sub b a) : K) ≤ FloatP.toK (FloatP.sub b' a')
  mid : ∀ a b : F, (0 : K) ≤ FloatP.toK a → (FloatP.toK a : K) ≤ FloatP.toK b → (FloatP.toK b : K) ≤ 1 →
    (FloatP.toK a : K) ≤ FloatP.toK (FloatP.add a (FloatP.half (FloatP.sub b a))) ∧
    (FloatP.toK (FloatP.add a (FloatP.half (FloatP.sub b a))) : K) ≤ FloatP.toK b

/-- Exact parameter arithmetic: the parameter is a number of the field. -/
instance (priority := 90) exactP (K : Type) [Field K] [LinearOrder K] : FloatP K K where
  toK := id
  zero := 0
  oneSub p := 1 - p
  sub a b := a - b
  add a b := a + b
  half a := a / 2
  lt a b := decide (a < b)

variable [IsStrictOrderedRing K]

omit [IsStrictOrderedRing K] in
@[simp] theorem exact_toK (a : K) : (FloatP.toK a : K) = a := rfl
omit [IsStrictOrderedRing K] in
@[simp] theorem exact_oneSub (a : K) : (FloatP.oneSub a : K) = 1 - a := rfl

/-- Exact arithmetic satisfies the laws with no error. -/
theorem exactLaws (K : Type) [Field K] [LinearOrder K] [IsStrictOrderedRing K] : FloatLaws K K (0 : K) where
  lt_iff a b := by change decide (a < b) = true ↔ a < b; simp
  inj a b h := h
  zero := rfl
  oneSub_anti a b h := by simp at *; linarith
  oneSub_pos a h := by simp at *; exact h
  oneSub_zero a h := by simp at *; exact h
  oneSub_one a h := by simp at *; rw [h]; simp
  err_nonneg := le_refl _
  sub_err a b _ _ _ := by change |(b - a) - (b - a)| ≤ 0; simp
  half_err a _ _ := by change |a / 2 - a / 2| ≤ 0; simp
  add_err a b _ _ _ _ _ := by change |(a + b) - (a + b)| ≤ 0; simp
  sub_nonneg a b h1 h2 h3 := by
    change 0 ≤ b - a ∧ b - a ≤ 1
    simp only [exact_toK] at *
    constructor <;> linarith
  half_nonneg a h1 h2 := by
    change 0 ≤ a / 2 ∧ a / 2 ≤ 1
    simp only [exact_toK] at *
    constructor <;> linarith
  sub_mono a b a' b' h := h
  mid a b h1 h2 h3 := by
    change a ≤ a + (b - a) / 2 ∧ a + (b - a) / 2 ≤ b
    simp only [exact_toK] at *
    constructor <;> linarith

end Lp
