import Verif.Spec.Pc
import Verif.Proofs.Reading
import Verif.Props.C58
import Verif.Props.C68

/-!
# The numbers of a PC satisfy the laws
-/

namespace Lp
open Spec

/-- Numbers with `b+1` significant bits are not changed. -/
theorem truncPos_fix (b : Nat) {m z : ℤ} (h0 : 0 < m) (hm : m ≤ 2 ^ (b + 1)) : truncPos b ((m : ℝ) * 2 ^ z) = (m : ℝ) * 2 ^ z := by
  set x : ℝ := (m : ℝ) * 2 ^ z with hx
  have hm0 : (0 : ℝ) < m := by exact_mod_cast h0
  have hxp : 0 < x := by positivity
  obtain ⟨k, hk⟩ : ∃ k : ℤ, x / ulp b x = k := by
    rcases lt_or_eq_of_le hm with hlt | rfl
    · have hl : Int.log 2 x ≤ b + z := by
        have : Int.log 2 x < b + 1 + z := by
          rw [← Int.lt_zpow_iff_log_lt (by norm_num) hxp, hx]
          push_cast
          rw [zpow_add₀ (by norm_num)]
          refine mul_lt_mul_of_pos_right ?_ (by positivity)
          have e : ((2 : ℝ) ^ ((b : ℤ) + 1)) = ((2 ^ (b + 1) : ℤ) : ℝ) := by push_cast; exact_mod_cast zpow_natCast (2 : ℝ) (b + 1)
          rw [e]
          exact_mod_cast hlt
        omega
      obtain ⟨j, hj⟩ : ∃ j : ℕ, (j : ℤ) = z - (Int.log 2 x - b) := ⟨(z - (Int.log 2 x - b)).toNat, by omega⟩
      refine ⟨m * 2 ^ j, ?_⟩
      rw [div_eq_iff (ulp_pos b x).ne']
      unfold ulp
      push_cast
      rw [mul_assoc, ← zpow_natCast (2 : ℝ) j, ← zpow_add₀ (by norm_num), hj, sub_add_cancel]
    · have e : x = ((2 : ℕ) : ℝ) ^ ((b : ℤ) + 1 + z) := by
        rw [hx]
        push_cast
        rw [zpow_add₀ (by norm_num)]
        congr 1
      have hl : Int.log 2 x = b + 1 + z := by rw [e]; exact Int.log_zpow (by norm_num) _
      refine ⟨2 ^ b, ?_⟩
      rw [div_eq_iff (ulp_pos b x).ne']
      unfold ulp
      rw [hl, e]
      push_cast
      rw [← zpow_natCast (2 : ℝ) b, ← zpow_add₀ (by norm_num)]
      congr 1
      ring
  unfold truncPos
  rw [hk, Int.floor_intCast, ← hk, div_mul_cancel₀ _ (ulp_pos b x).ne']

theorem truncBits_fix (b : Nat) {m z : ℤ} (hm : |m| ≤ 2 ^ (b + 1)) : truncBits b ((m : ℝ) * 2 ^ z) = (m : ℝ) * 2 ^ z := by
  have hp : (0 : ℝ) < 2 ^ z := by positivity
  unfold truncBits
  rcases lt_trichotomy m 0 with h | h | h
  · have hn : (m : ℝ) < 0 := by exact_mod_cast h
    rw [if_neg (by nlinarith), if_pos (by nlinarith)]
    have := truncPos_fix b (m := -m) (z := z) (by omega) (by rw [abs_of_neg h] at hm; exact hm)
    push_cast at this
    rw [show -((m : ℝ) * 2 ^ z) = -(m : ℝ) * 2 ^ z by ring, this]
    ring
  · subst h; simp
  · have hn : (0 : ℝ) < m := by exact_mod_cast h
    rw [if_pos (by positivity), truncPos_fix b h (by rw [abs_of_pos h] at hm; exact hm)]

theorem isBin_zpow {b s : Nat} {x : ℚ} (h : IsBin b s x) : ∃ m z : ℤ, |m| ≤ 2 ^ b ∧ (x : ℝ) = (m : ℝ) * 2 ^ z := by
  obtain ⟨m, e, hm, he⟩ := h
  refine ⟨m, e - s, hm, ?_⟩
  have he : (x : ℝ) * 2 ^ s = m * 2 ^ e := by exact_mod_cast he
  rw [zpow_sub₀ (by norm_num), zpow_natCast, zpow_natCast, ← mul_div_assoc, ← he, mul_div_assoc, div_self (by positivity), mul_one]

/-- A `double` is a `long double`. -/
theorem pcLong_val {x : ℚ} (h : IsB64 x) : (pcLong x).val = x := by
  obtain ⟨m, z, hm, e⟩ := isBin_zpow h
  change truncBits 63 (x : ℝ) = x
  rw [e]
  exact truncBits_fix 63 (le_trans hm (by norm_num))

/-- Binary64 numbers in terms of powers of two. -/
theorem isB64_zpow {x : ℚ} {m z : ℤ} (hm : |m| ≤ 2 ^ 53) (hz : -1074 ≤ z) (e : x = (m : ℚ) * 2 ^ z) : IsB64 x := by
  refine ⟨m, (z + 1074).toNat, hm, ?_⟩
  rw [e, mul_assoc, ← zpow_natCast (2 : ℚ) 1074, ← zpow_add₀ (by norm_num), ← zpow_natCast (2 : ℚ) (z + 1074).toNat]
  congr 2
  omega

theorem rnd64_err_pos (S : Rounding64) (x : ℝ) (h : 0 ≤ x) : |((S.rnd x : ℚ) : ℝ) - x| ≤ 1 / 2 ^ 52 * max 1 |x| := by
  rcases le_or_gt x 1 with h1 | h1
  · have := (conversionLaws S roundToZero).err x h h1
    change |((S.rnd x : ℚ) : ℝ) - x| ≤ _ at this
    have hm : (1 : ℝ) ≤ max 1 |x| := le_max_left _ _
    refine this.trans ?_
    have : (1 : ℝ) / 2 ^ 53 ≤ 1 / 2 ^ 52 := by norm_num
    nlinarith
  · have hx : 0 < x := by linarith
    have l0 : 0 ≤ Int.log 2 x := by
      have := Int.log_mono_right (b := 2) (show (0 : ℝ) < 1 by norm_num) h1.le
      rwa [Int.log_one_right] at this
    set k := ⌊x / ulp 52 x⌋ with hk
    have up := ulp_pos 52 x
    have k0 : 0 ≤ k := Int.floor_nonneg.mpr (by positivity)
    have k1 : k < 2 ^ 53 := by
      have h2 := Int.lt_zpow_succ_log_self (b := 2) (by norm_num) x
      have : x / ulp 52 x < 2 ^ 53 := by
        rw [div_lt_iff₀ up]
        unfold ulp
        refine lt_of_lt_of_eq h2 ?_
        rw [← zpow_natCast (2 : ℝ) 53, ← zpow_add₀ (by norm_num)]
        push_cast
        congr 1
        ring
      have := lt_of_le_of_lt (Int.floor_le (x / ulp 52 x)) this
      rw [← hk] at this
      exact_mod_cast this
    have a1 : (k : ℝ) * ulp 52 x ≤ x := truncPos_le 52 x
    have a2 : x < ((k + 1 : ℤ) : ℝ) * ulp 52 x := by
      have := truncPos_gt 52 x
      unfold truncPos at this
      rw [← hk] at this
      push_cast
      linarith
    have grid : ∀ j : ℤ, |j| ≤ 2 ^ 53 → ((S.rnd ((j : ℝ) * ulp 52 x) : ℚ) : ℝ) = (j : ℝ) * ulp 52 x := by
      intro j hj
      have hb : IsB64 ((j : ℚ) * 2 ^ (Int.log 2 x - 52)) := isB64_zpow hj (by omega) rfl
      have := S.fix _ hb
      have ec : (((j : ℚ) * 2 ^ (Int.log 2 x - 52) : ℚ) : ℝ) = (j : ℝ) * ulp 52 x := by
        unfold ulp; push_cast; rfl
      rw [ec] at this
      rw [this, ec]
    have g1 := grid k (by rw [abs_of_nonneg k0]; exact k1.le)
    have g2 := grid (k + 1) (by rw [abs_of_nonneg (by omega)]; omega)
    have m1 : ((S.rnd ((k : ℝ) * ulp 52 x) : ℚ) : ℝ) ≤ ((S.rnd x : ℚ) : ℝ) := by exact_mod_cast S.mono _ _ a1
    have m2 : ((S.rnd x : ℚ) : ℝ) ≤ ((S.rnd (((k + 1 : ℤ) : ℝ) * ulp 52 x) : ℚ) : ℝ) := by exact_mod_cast S.mono _ _ a2.le
    rw [g1] at m1
    rw [g2] at m2
    push_cast at m2 a2
    have u1 := ulp_le 52 hx
    have u2 : ulp 52 x ≤ 1 / 2 ^ 52 * max 1 |x| := by
      have : x ≤ max 1 |x| := (le_abs_self x).trans (le_max_right _ _)
      have : ulp 52 x ≤ 1 / 2 ^ 52 * x := by
        rw [div_mul_eq_mul_div, one_mul, le_div_iff₀ (by positivity)]; exact u1
      nlinarith
    rw [abs_le]
    constructor <;> linarith

/-- The rounding mirrored at 0. -/
def Rounding64.neg (S : Rounding64) : Rounding64 where
  rnd x := - S.rnd (-x)
  b64 x := by
    obtain ⟨m, e, h, h'⟩ := S.b64 (-x)
    exact ⟨-m, e, by rwa [abs_neg], by push_cast; rw [neg_mul, h', neg_mul]⟩
  mono x y h := neg_le_neg (S.mono _ _ (neg_le_neg h))
  fix x hx := by
    obtain ⟨m, e, h, h'⟩ := hx
    have := S.fix (-x) ⟨-m, e, by rwa [abs_neg], by push_cast; rw [neg_mul, h', neg_mul]⟩
    push_cast at this
    rw [this, neg_neg]

/-- Rounding to binary64 has an error of at most `2^-52`, relative for numbers above 1. -/
theorem rnd64_err (S : Rounding64) (x : ℝ) : |((S.rnd x : ℚ) : ℝ) - x| ≤ 1 / 2 ^ 52 * max 1 |x| := by
  rcases le_total 0 x with h | h
  · exact rnd64_err_pos S x h
  · have := rnd64_err_pos S.neg (-x) (by linarith)
    have e : ((S.neg.rnd (-x) : ℚ) : ℝ) - -x = -(((S.rnd x : ℚ) : ℝ) - x) := by
      show ((- S.rnd (- -x) : ℚ) : ℝ) - -x = _
      rw [neg_neg]; push_cast; ring
    rwa [e, abs_neg, abs_neg] at this

/-- The numbers of a PC satisfy the laws. -/
theorem pcLaws (S : Rounding64) (R : Rounding) :
    MachineLaws (pcNum S R (fun x => b32_b64 x.2)) pcAcc RoundedLog.val (fun d => ((d.1 : ℚ) : ℝ)) (fun p : PcFloat R => p.val)
      (1 / 2 ^ 63) (logAccuracy (truncationIn ℝ 63) (truncationIn ℝ 52)) ((1 + 1 / 2 ^ 63) * (1 + 1 / 2 ^ 23) - 1) (1 / 2 ^ 52) (1 / 2 ^ 23) where
  log := C58.x87
  area := C68.bits 63 23
  float := withLaws (b32Laws R) pcLong
  w_le := le_trans C58.x87_accuracy (by norm_num)
  u_le := by norm_num
  b_nonneg := by positivity
  b_le := by norm_num
  toK p := pcLong_val (b32_b64 (Subtype.property (show B32 R from p)))
  wide d := pcLong_val d.2
  ofFloat p := rfl
  oneSub p h0 h1 := by
    change |R.rnd (1 - Subtype.val (show B32 R from p)) - (1 - Subtype.val (show B32 R from p))| ≤ _
    change 0 ≤ Subtype.val (show B32 R from p) at h0
    change Subtype.val (show B32 R from p) ≤ 1 at h1
    exact le_trans (rnd_err24 R (by linarith) (by linarith)) (by norm_num)
  narrow x := rnd64_err S _
  int d n h hn := (conversionLaws S R).int d n h hn

end Lp
