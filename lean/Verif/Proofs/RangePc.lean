import Verif.Spec.RangePc
import Verif.Proofs.Pc
import Mathlib.Analysis.Complex.ExponentialBounds

/-!
# The numbers of a PC, with their ranges, satisfy the laws
-/

namespace Lp
open Spec

/-- Rounding to binary32: relative error `2^-23`, absolute error `2^-149` below the normal numbers. -/
theorem rnd32_err_pos (A : Rounding32) (x : ℝ) (h : 0 ≤ x) : |((A.rnd x : ℚ) : ℝ) - x| ≤ 1 / 2 ^ 23 * |x| + 1 / 2 ^ 149 := by
  set t : ℝ := x * 2 ^ 149 with ht
  have t0 : 0 ≤ t := by positivity
  set D := ⌊t⌋₊ with hD
  have d1 : (D : ℝ) ≤ t := Nat.floor_le t0
  have d2 : t < D + 1 := Nat.lt_floor_add_one t
  set s := Nat.log 2 D - 23 with hs
  set q := D / 2 ^ s with hq
  have q1 : q * 2 ^ s ≤ D := Nat.div_mul_le_self _ _
  have q2 : D + 1 ≤ (q + 1) * 2 ^ s := by
    have := Nat.lt_div_mul_add (a := D) (b := 2 ^ s) (by positivity)
    rw [← hq] at this
    rw [Nat.add_mul, Nat.one_mul]; omega
  have q3 : q < 2 ^ 24 := by
    rw [hq, Nat.div_lt_iff_lt_mul (by positivity), ← pow_add]
    exact lt_of_lt_of_le (Nat.lt_pow_succ_log_self (b := 2) (by norm_num) D) (Nat.pow_le_pow_right (by norm_num) (by omega))
  have grid : ∀ j : ℕ, j ≤ 2 ^ 24 → ((A.rnd ((j : ℝ) * 2 ^ s / 2 ^ 149) : ℚ) : ℝ) = (j : ℝ) * 2 ^ s / 2 ^ 149 := by
    intro j hj
    have hb : IsB32 ((j : ℚ) * 2 ^ s / 2 ^ 149) := ⟨j, s, by rw [abs_of_nonneg (by positivity)]; exact_mod_cast hj, by
      rw [div_mul_cancel₀ _ (by positivity)]; simp⟩
    have := A.fix _ hb
    have ec : (((j : ℚ) * 2 ^ s / 2 ^ 149 : ℚ) : ℝ) = (j : ℝ) * 2 ^ s / 2 ^ 149 := by push_cast; rfl
    rw [ec] at this
    rw [this, ec]
  have q1' : (q : ℝ) * 2 ^ s ≤ D := by exact_mod_cast q1
  have q2' : (D : ℝ) + 1 ≤ ((q : ℝ) + 1) * 2 ^ s := by exact_mod_cast q2
  have hp : (0 : ℝ) < 2 ^ 149 := by positivity
  have a1 : (q : ℝ) * 2 ^ s / 2 ^ 149 ≤ x := by rw [div_le_iff₀ hp]; linarith
  have a2 : x ≤ ((q : ℝ) + 1) * 2 ^ s / 2 ^ 149 := by rw [le_div_iff₀ hp]; linarith
  have g1 := grid q q3.le
  have g2 := grid (q + 1) q3
  push_cast at g2
  have m1 : ((A.rnd ((q : ℝ) * 2 ^ s / 2 ^ 149) : ℚ) : ℝ) ≤ ((A.rnd x : ℚ) : ℝ) := by exact_mod_cast A.mono _ _ a1
  have m2 : ((A.rnd x : ℚ) : ℝ) ≤ ((A.rnd (((q : ℝ) + 1) * 2 ^ s / 2 ^ 149) : ℚ) : ℝ) := by exact_mod_cast A.mono _ _ a2
  rw [g1] at m1
  rw [g2] at m2
  have e1 : ((q : ℝ) + 1) * 2 ^ s / 2 ^ 149 = (q : ℝ) * 2 ^ s / 2 ^ 149 + 2 ^ s / 2 ^ 149 := by ring
  have step : (2 : ℝ) ^ s / 2 ^ 149 ≤ 1 / 2 ^ 23 * |x| + 1 / 2 ^ 149 := by
    rw [abs_of_nonneg h]
    rcases Nat.eq_zero_or_pos s with e | e
    · rw [e, pow_zero]
      have : 0 ≤ 1 / 2 ^ 23 * x := by positivity
      linarith
    · have hD0 : D ≠ 0 := by
        rintro e0
        rw [e0] at hs
        simp at hs
        omega
      have l1 := Nat.pow_log_le_self 2 hD0
      have l2 : 2 ^ s * 2 ^ 23 ≤ D := by
        rw [← pow_add]
        refine le_trans (le_of_eq ?_) l1
        congr 1
        omega
      have l3 : (2 : ℝ) ^ s * 2 ^ 23 ≤ D := by exact_mod_cast l2
      have l4 : (2 : ℝ) ^ s / 2 ^ 149 ≤ 1 / 2 ^ 23 * x := by
        rw [div_le_iff₀ hp, mul_assoc, ← ht, div_mul_eq_mul_div, one_mul, le_div_iff₀ (by positivity)]
        linarith
      have : (0 : ℝ) < 1 / 2 ^ 149 := by positivity
      linarith
  rw [abs_le]
  constructor <;> linarith

/-- The rounding mirrored at 0. -/
def Spec.Rounding32.neg (A : Rounding32) : Rounding32 where
  rnd x := - A.rnd (-x)
  b32 x := isB32_neg (A.b32 (-x))
  mono x y h := neg_le_neg (A.mono _ _ (neg_le_neg h))
  fix x hx := by
    have := A.fix (-x) (isB32_neg hx)
    push_cast at this
    rw [this, neg_neg]

theorem rnd32_err (A : Rounding32) (x : ℝ) : |((A.rnd x : ℚ) : ℝ) - x| ≤ 1 / 2 ^ 23 * |x| + 1 / 2 ^ 149 := by
  rcases le_total 0 x with h | h
  · exact rnd32_err_pos A x h
  · have := rnd32_err_pos A.neg (-x) (by linarith)
    have e : ((A.neg.rnd (-x) : ℚ) : ℝ) - -x = -(((A.rnd x : ℚ) : ℝ) - x) := by
      show ((- A.rnd (- -x) : ℚ) : ℝ) - -x = _
      rw [neg_neg]; push_cast; ring
    rwa [e, abs_neg, abs_neg] at this

theorem isB32_gridR {x : ℚ} (h : IsB32 x) : Grid 149 (x : ℝ) := by
  obtain ⟨z, hz⟩ := isB32_int h
  refine ⟨z, ?_⟩
  rw [eq_div_iff (by positivity)]
  exact_mod_cast hz

/-- The numbers of a PC satisfy the laws. -/
theorem rangePc (M : PcChoice) :
    RangeMachine (K := PcLong) M.num M.acc Limited.fin Limited.num RoundedLog.val (fun d => ((d.1 : ℚ) : ℝ)) (fun p : M.Float => p.val)
      (1 / 2 ^ 63) (logAccuracy (truncationIn ℝ 63) (truncationIn ℝ 52)) (1 / 2 ^ 23) (1 / 2 ^ 149) (1 / 2 ^ 52) (1 / 2 ^ 23)
      63 55 16382 1022 149 127 where
  arith := C84.long M.lost
  one := ⟨⟨1, rfl⟩, rfl⟩
  valOne := (C68.bits 63 23).one
  half := (C68.bits 63 23).half_err
  float := withLaws (b32Laws M.R) M.long
  u_le := by norm_num
  le := by norm_num
  s_nonneg := by positivity
  s_le := by norm_num
  β_nonneg := by positivity
  β_le := by norm_num
  top := by norm_num
  two := by norm_num
  toK p _ _ := by
    have hb := Subtype.property (show B32 M.R from p)
    exact ⟨⟨_, rfl⟩, isB32_gridR hb, pcLong_val (b32_b64 hb)⟩
  wide d := ⟨⟨_, rfl⟩, pcLong_val d.2⟩
  ofFloat p := rfl
  oneSub p h0 h1 := by
    change |M.R.rnd (1 - Subtype.val (show B32 M.R from p)) - (1 - Subtype.val (show B32 M.R from p))| ≤ _
    change 0 ≤ Subtype.val (show B32 M.R from p) at h0
    change Subtype.val (show B32 M.R from p) ≤ 1 at h1
    exact le_trans (rnd_err24 M.R (by linarith) (by linarith)) (by norm_num)
  narrow x hx hm := by
    have hm' : |(Limited.num x).val| ≤ 2 ^ 1023 := hm.trans (pow_le_pow_right₀ (by norm_num) (by norm_num))
    have e : M.num.narrow x = ⟨M.S.rnd (Limited.num x).val, M.S.b64 _⟩ := if_pos ⟨hx, hm'⟩
    rw [e]
    exact rnd64_err M.S _
  acc x hx hm := by
    have e : M.acc x = M.long (M.A.rnd (Limited.num x).val) := if_pos ⟨hx, hm⟩
    have hb := M.A.b32 (Limited.num x).val
    have ev : (Limited.num (M.long (M.A.rnd (Limited.num x).val))).val = ((M.A.rnd (Limited.num x).val : ℚ) : ℝ) := pcLong_val (b32_b64 hb)
    rw [e, ev]
    exact ⟨⟨_, rfl⟩, isB32_gridR hb, rnd32_err M.A _⟩
  int d n h hn := (conversionLaws M.S M.R).int d n h hn

/-- The threshold has to be at least `11/2^23`. -/
theorem searchFitsPc {t : ℚ} (h : 11 / 2 ^ 23 ≤ t) : SearchFits (1 / 2 ^ 23) (1 / 2 ^ 23) 21 127 t where
  pos := lt_of_lt_of_le (by norm_num) h
  res := le_trans (by norm_num) h
  depth := by
    have : (5 : ℚ) / 2 ^ 23 ≤ t - 6 * (1 / 2 ^ 23) := by linarith
    linarith
  grow := by
    have h1 : ((1 : ℝ) + 1 / 2 ^ 23) ^ (2 * (2 ^ 21 + 1) + 4) ≤ Real.exp (1 / 2 ^ 23) ^ (2 * (2 ^ 21 + 1) + 4) :=
      pow_le_pow_left₀ (by positivity) (by have := Real.add_one_le_exp (1 / 2 ^ 23 : ℝ); linarith) _
    refine h1.trans ?_
    rw [← Real.exp_nat_mul]
    have h2 : ((2 * (2 ^ 21 + 1) + 4 : ℕ) : ℝ) * (1 / 2 ^ 23) ≤ Real.log 2 := by
      have := Real.log_two_gt_d9
      refine le_trans ?_ this.le
      push_cast
      norm_num
    calc Real.exp _ ≤ Real.exp (Real.log 2) := Real.exp_le_exp.mpr h2
      _ = 2 := Real.exp_log (by norm_num)
  top := by
    refine le_trans (b := (2 : ℝ) ^ 30) (by norm_num) (pow_le_pow_right₀ (by norm_num) (by norm_num))

/-- A `double` that is 0 or at least `2^-970` is a multiple of `2^-1022`. -/
theorem isB64_grid {x : ℚ} (h : IsB64 x) (hx : x = 0 ∨ 1 / 2 ^ 970 ≤ x) : Grid 1022 (x : ℝ) := by
  rcases hx with rfl | hx
  · rw [Rat.cast_zero]; exact Grid.zero _
  · obtain ⟨m, z, hm, e⟩ := isBin_zpow h
    have hx' : (1 : ℝ) / 2 ^ 970 ≤ x := by
      have := (Rat.cast_le (K := ℝ)).mpr hx
      rwa [Rat.cast_div, Rat.cast_one, Rat.cast_pow, Rat.cast_ofNat] at this
    have hf : truncBits 52 (x : ℝ) = x := by rw [e]; exact truncBits_fix 52 hm
    exact truncBits_bits (b := 52) (e := 970) hf (le_trans hx' (le_abs_self _))

end Lp
