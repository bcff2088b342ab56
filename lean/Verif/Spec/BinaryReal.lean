import Verif.Spec.Binary
import Mathlib.Data.Real.Basic
import Mathlib.Data.Rat.Cast.Order

/-!
# Specification: binary32 parameters with real qualities

The entropy measures are real numbers; `OverReal F` is the parameter type `F` whose numbers are seen as reals.
-/

namespace Lp

/-- The parameter type `F`, its numbers seen as reals. -/
def OverReal (F : Type) : Type := F

instance overRealP (F : Type) [inst : FloatP F ℚ] : FloatP (OverReal F) ℝ where
  toK a := ((inst.toK a : ℚ) : ℝ)
  zero := inst.zero
  oneSub p := inst.oneSub p
  sub a b := inst.sub a b
  add a b := inst.add a b
  half a := inst.half a
  lt a b := inst.lt a b

/-- The laws carry over. -/
theorem overRealLaws {F : Type} [inst : FloatP F ℚ] {u : ℚ} (fl : FloatLaws F ℚ u) :
    FloatLaws (OverReal F) ℝ ((u : ℚ) : ℝ) where
  lt_iff a b := (fl.lt_iff a b).trans Rat.cast_lt.symm
  inj a b h := fl.inj a b (Rat.cast_injective h)
  zero := (congrArg (Rat.cast (K := ℝ)) fl.zero).trans Rat.cast_zero
  oneSub_anti a b h := Rat.cast_le.mpr (fl.oneSub_anti a b (Rat.cast_le.mp h))
  oneSub_pos a h := Rat.cast_pos.mpr (fl.oneSub_pos a (by exact_mod_cast (show ((inst.toK a : ℚ) : ℝ) < 1 from h)))
  oneSub_zero a h := by
    have h : ((inst.toK a : ℚ) : ℝ) = 0 := h
    have := fl.oneSub_zero a (by exact_mod_cast h)
    show ((inst.toK (inst.oneSub a) : ℚ) : ℝ) = 1
    exact_mod_cast this
  oneSub_one a h := by
    have h : ((inst.toK a : ℚ) : ℝ) = 1 := h
    have := fl.oneSub_one a (by exact_mod_cast h)
    show ((inst.toK (inst.oneSub a) : ℚ) : ℝ) = 0
    exact_mod_cast this
  err_nonneg := by exact_mod_cast fl.err_nonneg
  sub_err a b h0 hab h1 := by
    have h0 : (0 : ℝ) ≤ ((inst.toK a : ℚ) : ℝ) := h0
    have hab : ((inst.toK a : ℚ) : ℝ) ≤ ((inst.toK b : ℚ) : ℝ) := hab
    have h1 : ((inst.toK b : ℚ) : ℝ) ≤ 1 := h1
    have := fl.sub_err a b (by exact_mod_cast h0) (by exact_mod_cast hab) (by exact_mod_cast h1)
    show |((inst.toK (inst.sub b a) : ℚ) : ℝ) - (((inst.toK b : ℚ) : ℝ) - ((inst.toK a : ℚ) : ℝ))| ≤ ((u : ℚ) : ℝ)
    exact_mod_cast this
  half_err a h0 h1 := by
    have h0 : (0 : ℝ) ≤ ((inst.toK a : ℚ) : ℝ) := h0
    have h1 : ((inst.toK a : ℚ) : ℝ) ≤ 1 := h1
    have := fl.half_err a (by exact_mod_cast h0) (by exact_mod_cast h1)
    show |((inst.toK (inst.half a) : ℚ) : ℝ) - ((inst.toK a : ℚ) : ℝ) / 2| ≤ ((u : ℚ) : ℝ)
    exact_mod_cast this
  add_err a b h0 h1 h2 h3 h4 := by
    have h0 : (0 : ℝ) ≤ ((inst.toK a : ℚ) : ℝ) := h0
    have h1 : ((inst.toK a : ℚ) : ℝ) ≤ 1 := h1
    have h2 : (0 : ℝ) ≤ ((inst.toK b : ℚ) : ℝ) := h2
    have h3 : ((inst.toK b : ℚ) : ℝ) ≤ 1 := h3
    have h4 : ((inst.toK a : ℚ) : ℝ) + ((inst.toK b : ℚ) : ℝ) ≤ 2 := h4
    have := fl.add_err a b (by exact_mod_cast h0) (by exact_mod_cast h1) (by exact_mod_cast h2) (by exact_mod_cast h3)
      (by exact_mod_cast h4)
    show |((inst.toK (inst.add a b) : ℚ) : ℝ) - (((inst.toK a : ℚ) : ℝ) + ((inst.toK b : ℚ) : ℝ))| ≤ ((u : ℚ) : ℝ)
    exact_mod_cast this
  sub_nonneg a b h0 hab h1 := by
    have h0 : (0 : ℝ) ≤ ((inst.toK a : ℚ) : ℝ) := h0
    have hab : ((inst.toK a : ℚ) : ℝ) ≤ ((inst.toK b : ℚ) : ℝ) := hab
    have h1 : ((inst.toK b : ℚ) : ℝ) ≤ 1 := h1
    have := fl.sub_nonneg a b (by exact_mod_cast h0) (by exact_mod_cast hab) (by exact_mod_cast h1)
    show (0 : ℝ) ≤ ((inst.toK (inst.sub b a) : ℚ) : ℝ) ∧ ((inst.toK (inst.sub b a) : ℚ) : ℝ) ≤ 1
    exact_mod_cast this
  half_nonneg a h0 h1 := by
    have h0 : (0 : ℝ) ≤ ((inst.toK a : ℚ) : ℝ) := h0
    have h1 : ((inst.toK a : ℚ) : ℝ) ≤ 1 := h1
    have := fl.half_nonneg a (by exact_mod_cast h0) (by exact_mod_cast h1)
    show (0 : ℝ) ≤ ((inst.toK (inst.half a) : ℚ) : ℝ) ∧ ((inst.toK (inst.half a) : ℚ) : ℝ) ≤ 1
    exact_mod_cast this
  sub_mono a b a' b' h := by
    have h : ((inst.toK b : ℚ) : ℝ) - ((inst.toK a : ℚ) : ℝ) ≤ ((inst.toK b' : ℚ) : ℝ) - ((inst.toK a' : ℚ) : ℝ) := h
    have := fl.sub_mono a b a' b' (by exact_mod_cast h)
    show ((inst.toK (inst.sub b a) : ℚ) : ℝ) ≤ ((inst.toK (inst.sub b' a') : ℚ) : ℝ)
    exact_mod_cast this
  mid a b h0 hab h1 := by
    have h0 : (0 : ℝ) ≤ ((inst.toK a : ℚ) : ℝ) := h0
    have hab : ((inst.toK a : ℚ) : ℝ) ≤ ((inst.toK b : ℚ) : ℝ) := hab
    have h1 : ((inst.toK b : ℚ) : ℝ) ≤ 1 := h1
    have := fl.mid a b (by exact_mod_cast h0) (by exact_mod_cast hab) (by exact_mod_cast h1)
    show ((inst.toK a : ℚ) : ℝ) ≤ ((inst.toK (inst.add a (inst.half (inst.sub b a))) : ℚ) : ℝ) ∧
      ((inst.toK (inst.add a (inst.half (inst.sub b a))) : ℚ) : ℝ) ≤ ((inst.toK b : ℚ) : ℝ)
    exact_mod_cast this

end Lp
