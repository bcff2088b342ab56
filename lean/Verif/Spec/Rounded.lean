import Verif.Base.Num
import Mathlib.Algebra.Order.Ring.Abs
import Mathlib.Algebra.Order.Floor.Ring
import Mathlib.Data.Rat.Floor
import Mathlib.Data.Int.Log
import Mathlib.Tactic.Linarith
import Mathlib.Tactic.Ring
import Mathlib.Tactic.Positivity
import Mathlib.Tactic.FieldSimp

/-!
# Specification: quality arithmetic with rounding

`RoundedLaws K val u`: the numbers of type `K` stand for numbers of the ordered field `E` (`val`); comparisons are those of the
numbers; each addition, subtraction and multiplication has relative error at most `u`; addition is rounded monotonically
and adding or subtracting 0 is exact.  This is the standard model of floating-point arithmetic without overflow and
underflow.  `Rounded R` is the type of numbers representable for a rounding `R`; `truncation b` is the rounding
towards zero to `b` significant bits (`b = 64` for the x87 `long double`).
-/

namespace Lp

/-- The laws of rounded arithmetic used by the theorems. -/
structure RoundedLaws {K E : Type} [LD K] [Field E] [LinearOrder E] (val : K → E) (u : E) : Prop where
  unit_nonneg : 0 ≤ u
  lt_iff : ∀ a b : K, a < b ↔ val a < val b
  eq_iff : ∀ a b : K, (a == b) = true ↔ val a = val b
  zero : val 0 = 0
  zero_add : ∀ a : K, val (0 + a) = val a
  add_zero : ∀ a : K, val (a + 0) = val a
  sub_zero : ∀ a : K, val (a - 0) = val a
  add_mono : ∀ a a' b b' : K, val a ≤ val a' → val b ≤ val b' → val (a + b) ≤ val (a' + b')
  add_err : ∀ a b : K, |val (a + b) - (val a + val b)| ≤ u * |val a + val b|
  sub_err : ∀ a b : K, |val (a - b) - (val a - val b)| ≤ u * |val a - val b|
  mul_err : ∀ a b : K, |val (a * b) - val a * val b| ≤ u * |val a * val b|

/-- A rounding: monotone, idempotent, exact at 0 and 1, with relative error at most `u`. -/
structure RoundTo (E : Type) [Field E] [LinearOrder E] where
  rnd : E → E
  u : E
  mono : ∀ x y, x ≤ y → rnd x ≤ rnd y
  idem : ∀ x, rnd (rnd x) = rnd x
  zero : rnd 0 = 0
  one : rnd 1 = 1
  nonneg : 0 ≤ u
  err : ∀ x, |rnd x - x| ≤ u * |x|

section
variable {E : Type} [Field E] [LinearOrder E]

/-- The representable numbers. -/
def Rounded (R : RoundTo E) : Type := {x : E // R.rnd x = x}

/-- Round to a representable number. -/
def RoundTo.to (R : RoundTo E) (x : E) : Rounded R := ⟨R.rnd x, R.idem x⟩

/-- Operations: the exact result, rounded. -/
instance (R : RoundTo E) : LD (Rounded R) where
  zero := ⟨0, R.zero⟩
  one := ⟨1, R.one⟩
  add a b := R.to (a.1 + b.1)
  sub a b := R.to (a.1 - b.1)
  mul a b := R.to (a.1 * b.1)
  div a b := R.to (a.1 / b.1)
  lt a b := a.1 < b.1
  beq a b := decide (a.1 = b.1)
  decLt a b := inferInstanceAs (Decidable (a.1 < b.1))

variable [IsStrictOrderedRing E]

theorem roundedLaws (R : RoundTo E) : RoundedLaws (K := Rounded R) (fun x => x.1) R.u where
  unit_nonneg := R.nonneg
  lt_iff _ _ := Iff.rfl
  eq_iff a b := by change decide (a.1 = b.1) = true ↔ _; simp
  zero := rfl
  zero_add a := by change R.rnd (0 + a.1) = a.1; rw [_root_.zero_add]; exact a.2
  add_zero a := by change R.rnd (a.1 + 0) = a.1; rw [_root_.add_zero]; exact a.2
  sub_zero a := by change R.rnd (a.1 - 0) = a.1; rw [_root_.sub_zero]; exact a.2
  add_mono a a' b b' h1 h2 := R.mono _ _ (add_le_add h1 h2)
  add_err a b := R.err _
  sub_err a b := R.err _
  mul_err a b := R.err _

/-- Exact arithmetic is the case `u = 0`. -/
theorem exactRounded : RoundedLaws (K := E) (fun x => x) (0 : E) where
  unit_nonneg := le_refl _
  lt_iff _ _ := Iff.rfl
  eq_iff a b := by change decide (a = b) = true ↔ _; simp
  zero := rfl
  zero_add a := _root_.zero_add a
  add_zero a := _root_.add_zero a
  sub_zero a := _root_.sub_zero a
  add_mono a a' b b' h1 h2 := add_le_add h1 h2
  add_err a b := by
    have : (LD.toAdd.add a b : E) - (a + b) = 0 := sub_self _
    change |(LD.toAdd.add a b : E) - (a + b)| ≤ _
    rw [this]; simp
  sub_err a b := by
    have : (LD.toSub.sub a b : E) - (a - b) = 0 := sub_self _
    change |(LD.toSub.sub a b : E) - (a - b)| ≤ _
    rw [this]; simp
  mul_err a b := by
    have : (LD.toMul.mul a b : E) - (a * b) = 0 := sub_self _
    change |(LD.toMul.mul a b : E) - (a * b)| ≤ _
    rw [this]; simp
end

/-! ## Rounding towards zero to `b+1` significant bits -/

section
variable {E : Type} [Field E] [LinearOrder E] [IsStrictOrderedRing E] [FloorRing E]

/-- Unit in the last place of a positive number with `b+1` significant bits. -/
def ulp (b : Nat) (x : E) : E := 2 ^ (Int.log 2 x - b)

/-- Positive numbers: cut off after `b+1` bits. -/
def truncPos (b : Nat) (x : E) : E := ⌊x / ulp b x⌋ * ulp b x

theorem ulp_pos (b : Nat) (x : E) : 0 < ulp b x := by unfold ulp; positivity

theorem ulp_le (b : Nat) {x : E} (hx : 0 < x) : ulp b x * 2 ^ b ≤ x := by
  have h := Int.zpow_log_le_self (b := 2) (by norm_num) hx
  have e : ulp b x * 2 ^ b = ((2 : ℕ) : E) ^ Int.log 2 x := by
    unfold ulp
    rw [← zpow_natCast (2 : E) b, ← zpow_add₀ (by norm_num)]
    norm_num
  rw [e]; exact h

theorem truncPos_le (b : Nat) (x : E) : truncPos b x ≤ x := by
  have := Int.floor_le (x / ulp b x)
  rw [le_div_iff₀ (ulp_pos b x)] at this
  exact this

theorem truncPos_gt (b : Nat) (x : E) : x - ulp b x < truncPos b x := by
  have := Int.lt_floor_add_one (x / ulp b x)
  rw [div_lt_iff₀ (ulp_pos b x)] at this
  unfold truncPos
  linarith [this, add_mul (⌊x / ulp b x⌋ : E) 1 (ulp b x)]

theorem truncPos_pow (b : Nat) {x : E} (hx : 0 < x) : (2 : E) ^ Int.log 2 x ≤ truncPos b x := by
  have e : ulp b x * 2 ^ b = (2 : E) ^ Int.log 2 x := by
    unfold ulp
    rw [← zpow_natCast (2 : E) b, ← zpow_add₀ (by norm_num)]
    norm_num
  have h := ulp_le b hx
  have h2 : ((2 ^ b : ℤ) : E) ≤ x / ulp b x := by
    rw [le_div_iff₀ (ulp_pos b x)]; push_cast; linarith
  have h3 : (2 ^ b : ℤ) ≤ ⌊x / ulp b x⌋ := Int.le_floor.mpr h2
  rw [← e]
  unfold truncPos
  have h4 : ((2 : E) ^ b) ≤ ⌊x / ulp b x⌋ := by exact_mod_cast h3
  rw [mul_comm]
  exact mul_le_mul_of_nonneg_right h4 (ulp_pos b x).le

theorem truncPos_pos (b : Nat) {x : E} (hx : 0 < x) : 0 < truncPos b x :=
  lt_of_lt_of_le (by positivity) (truncPos_pow b hx)

theorem truncPos_log (b : Nat) {x : E} (hx : 0 < x) : Int.log 2 (truncPos b x) = Int.log 2 x := by
  apply le_antisymm
  · exact Int.log_mono_right (truncPos_pos b hx) (truncPos_le b x)
  · have h := truncPos_pow b hx
    have := (Int.zpow_le_iff_le_log (b := 2) (by norm_num) (truncPos_pos b hx)).mp (by exact_mod_cast h)
    exact this

theorem truncPos_idem (b : Nat) {x : E} (hx : 0 < x) : truncPos b (truncPos b x) = truncPos b x := by
  have hu : ulp b (truncPos b x) = ulp b x := by unfold ulp; rw [truncPos_log b hx]
  rw [truncPos, hu]
  have : truncPos b x / ulp b x = ((⌊x / ulp b x⌋ : ℤ) : E) := by
    rw [truncPos, mul_div_assoc, div_self (ulp_pos b x).ne', mul_one]
  rw [this, Int.floor_intCast]
  rfl

theorem truncPos_mono (b : Nat) {x y : E} (hx : 0 < x) (h : x ≤ y) : truncPos b x ≤ truncPos b y := by
  have hy : 0 < y := lt_of_lt_of_le hx h
  rcases lt_or_eq_of_le (Int.log_mono_right (b := 2) hx h) with hl | hl
  · have h1 := Int.lt_zpow_succ_log_self (b := 2) (by norm_num) x
    have h2 := truncPos_pow b hy
    have h3 : ((2 : ℕ) : E) ^ (Int.log 2 x + 1) ≤ (2 : E) ^ Int.log 2 y := by
      push_cast
      exact zpow_le_zpow_right₀ (by norm_num) hl
    linarith [truncPos_le b x]
  · unfold truncPos
    have : ulp b x = ulp b y := by unfold ulp; rw [hl]
    rw [this]
    have h5 : ⌊x / ulp b y⌋ ≤ ⌊y / ulp b y⌋ := Int.floor_le_floor (div_le_div_of_nonneg_right h (ulp_pos b y).le)
    exact mul_le_mul_of_nonneg_right (by exact_mod_cast h5) (ulp_pos b y).le

/-- Rounding towards zero. -/
def truncBits (b : Nat) (x : E) : E :=
  if 0 < x then truncPos b x else if x < 0 then - truncPos b (-x) else 0

/-- Rounding towards zero to `b+1` significant bits, relative error at most `2^-b`. -/
def truncationIn (E : Type) [Field E] [LinearOrder E] [IsStrictOrderedRing E] [FloorRing E] (b : Nat) : RoundTo E where
  rnd := truncBits b
  u := 1 / 2 ^ b
  mono x y h := by
    unfold truncBits
    by_cases hx : 0 < x
    · rw [if_pos hx, if_pos (lt_of_lt_of_le hx h)]; exact truncPos_mono b hx h
    · rw [if_neg hx]
      by_cases hx' : x < 0
      · rw [if_pos hx']
        have hn := truncPos_pos b (show 0 < -x by linarith)
        by_cases hy : 0 < y
        · rw [if_pos hy]; linarith [truncPos_pos b hy]
        · rw [if_neg hy]
          by_cases hy' : y < 0
          · rw [if_pos hy']
            have := truncPos_mono b (show 0 < -y by linarith) (show -y ≤ -x by linarith)
            linarith
          · rw [if_neg hy']; linarith
      · rw [if_neg hx']
        have : 0 ≤ y := by linarith
        rcases lt_or_eq_of_le this with hy | hy
        · rw [if_pos hy]; exact (truncPos_pos b hy).le
        · rw [← hy]; simp
  idem x := by
    unfold truncBits
    by_cases hx : 0 < x
    · rw [if_pos hx, if_pos (truncPos_pos b hx)]; exact truncPos_idem b hx
    · rw [if_neg hx]
      by_cases hx' : x < 0
      · rw [if_pos hx']
        have hn := truncPos_pos b (show 0 < -x by linarith)
        rw [if_neg (by linarith), if_pos (by linarith), neg_neg, truncPos_idem b (by linarith)]
      · rw [if_neg hx']; simp
  zero := by simp [truncBits]
  one := by
    unfold truncBits
    rw [if_pos one_pos]
    have hl : Int.log 2 (1 : E) = 0 := Int.log_one_right 2
    unfold truncPos ulp
    rw [hl, zero_sub, zpow_neg, zpow_natCast, one_div, inv_inv]
    have : ((2 : E) ^ b) = ((2 ^ b : ℤ) : E) := by push_cast; rfl
    rw [this, Int.floor_intCast, mul_inv_cancel₀ (by positivity)]
  nonneg := by positivity
  err x := by
    have key : ∀ y : E, 0 < y → |truncPos b y - y| ≤ 1 / 2 ^ b * y := by
      intro y hy
      rw [abs_le]
      have h1 := truncPos_le b y
      have h2 := truncPos_gt b y
      have h3 : ulp b y ≤ 1 / 2 ^ b * y := by
        have := ulp_le b hy
        rw [div_mul_eq_mul_div, one_mul, le_div_iff₀ (by positivity)]
        exact this
      constructor <;> linarith [show 0 ≤ 1 / 2 ^ b * y by positivity]
    unfold truncBits
    by_cases hx : 0 < x
    · rw [if_pos hx, abs_of_pos hx]; exact key x hx
    · rw [if_neg hx]
      by_cases hx' : x < 0
      · rw [if_pos hx', abs_of_neg hx']
        have := key (-x) (by linarith)
        rw [show - truncPos b (-x) - x = -(truncPos b (-x) - -x) by ring, abs_neg]
        exact this
      · have : x = 0 := by linarith
        subst this
        simp
end

/-- Rounding towards zero in the rationals. -/
abbrev truncation (b : Nat) : RoundTo ℚ := truncationIn ℚ b

end Lp
