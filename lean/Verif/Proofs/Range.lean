import Verif.Spec.Range
import Verif.Spec.SumOf
import Verif.Proofs.QError

/-!
# Arithmetic with a bounded range: the computed qualities stay in range
-/

namespace Lp
open Spec
open scoped BigOperators

theorem Grid.mono {a a' : Nat} {x : ℝ} (h : Grid a x) (ha : a ≤ a') : Grid a' x := by
  obtain ⟨z, hz⟩ := h
  refine ⟨z * 2 ^ (a' - a), ?_⟩
  rw [hz]
  push_cast
  rw [div_eq_div_iff (by positivity) (by positivity), mul_assoc, ← pow_add, show a' - a + a = a' by omega]

theorem Grid.zero (a : Nat) : Grid a 0 := ⟨0, by simp⟩

/-- A multiple of `2^-a` that is not zero is at least `2^-a` in magnitude. -/
theorem Grid.low {a : Nat} {x : ℝ} (h : Grid a x) (hx : x ≠ 0) : 1 / 2 ^ a ≤ |x| := by
  obtain ⟨z, rfl⟩ := h
  rw [abs_div, abs_of_pos (show (0 : ℝ) < 2 ^ a by positivity)]
  refine div_le_div_of_nonneg_right ?_ (by positivity)
  have hz : z ≠ 0 := by rintro rfl; simp at hx
  have : 1 ≤ |z| := Int.one_le_abs hz
  exact_mod_cast this

theorem pow_inv_le {a E : Nat} (h : a ≤ E) : (1 : ℝ) / 2 ^ E ≤ 1 / 2 ^ a :=
  one_div_le_one_div_of_le (by positivity) (pow_le_pow_right₀ (by norm_num) h)

theorem Grid.inRange {a E : Nat} {x : ℝ} (h : Grid a x) (ha : a ≤ E) (hx : |x| ≤ 2 ^ E) : InRange E x := by
  by_cases h0 : x = 0
  · exact .inl h0
  · exact .inr ⟨le_trans (pow_inv_le ha) (h.low h0), hx⟩

theorem inRange_of {e E : Nat} {x : ℝ} (he : e ≤ E) (h : x ≠ 0 → 1 / 2 ^ e ≤ |x|) (hx : |x| ≤ 2 ^ E) : InRange E x := by
  by_cases h0 : x = 0
  · exact .inl h0
  · exact .inr ⟨le_trans (pow_inv_le he) (h h0), hx⟩

/-- Relative error and magnitude. -/
theorem err_upper {u x y : ℝ} (hu : u ≤ 1) (h : |y - x| ≤ u * |x|) : |y| ≤ 2 * |x| := by
  have h1 : |y| ≤ |y - x| + |x| := by simpa using abs_add_le (y - x) x
  nlinarith [abs_nonneg x]

theorem err_lower {u x y : ℝ} (hu : u ≤ 1 / 2) (h : |y - x| ≤ u * |x|) : |x| / 2 ≤ |y| := by
  have h1 : |x| ≤ |x - y| + |y| := by simpa using abs_add_le (x - y) y
  rw [abs_sub_comm] at h1
  nlinarith [abs_nonneg x]

theorem err_zero {u x y : ℝ} (h : |y - x| ≤ u * |x|) (hx : x = 0) : y = 0 := by
  subst hx
  simpa using h

/-- `2^-E ≤ x ≤ 2^E`: the logarithm is at most `E` in magnitude. -/
theorem log_bound {E : Nat} {x : ℝ} (h1 : 1 / 2 ^ E ≤ x) (h2 : x ≤ 2 ^ E) : |Real.log x| ≤ E := by
  have hx : 0 < x := lt_of_lt_of_le (by positivity) h1
  have hl2 : Real.log 2 ≤ 1 := by
    have := Real.log_le_sub_one_of_pos (show (0 : ℝ) < 2 by norm_num)
    linarith
  have hE : (E : ℝ) * Real.log 2 ≤ E := by nlinarith [Nat.cast_nonneg (α := ℝ) E]
  have e : Real.log ((2 : ℝ) ^ E) = E * Real.log 2 := Real.log_pow 2 E
  rw [abs_le]
  constructor
  · have := Real.log_le_log (by positivity) h1
    rw [one_div, Real.log_inv, e] at this
    linarith
  · have := Real.log_le_log hx h2
    rw [e] at this
    linarith

section
variable {K' K : Type} [LDLog K'] [LDLog K] {fin : K' → Prop} {num : K' → K} {val : K → ℝ} {u w : ℝ} {b g E Q : Nat}

omit [LDLog K'] [LDLog K] in
theorem Held.mono {a a' : Nat} {B B' : ℝ} {x : K'} (h : Held fin num val a B x) (ha : a ≤ a') (hB : B ≤ B') :
    Held fin num val a' B' x := ⟨h.fin, h.grid.mono ha, le_trans h.mag hB⟩

variable (ar : RangeArith fin num val u w b g E Q)
include ar

theorem Held.zero {a : Nat} {B : ℝ} (hB : 0 ≤ B) : Held fin num val a B (0 : K') :=
  ⟨ar.range.zero.1, by rw [ar.range.zero.2, ar.laws.zero]; exact .zero a, by rw [ar.range.zero.2, ar.laws.zero]; simpa using hB⟩

theorem add_num {x y : K'} {a : Nat} {B : ℝ} (ha : a ≤ E) (hB : B ≤ 2 ^ E) (hx : fin x) (hy : fin y) (gx : Grid a (val (num x)))
    (gy : Grid a (val (num y))) (hm : |val (num x + num y)| ≤ B) :
    num (x + y) = num x + num y ∧ Held fin num val a B (x + y) := by
  have hg := ar.fine.add _ _ a gx gy
  obtain ⟨h1, h2⟩ := ar.range.add hx hy (hg.inRange ha (le_trans hm hB))
  exact ⟨h2, h1, by rwa [h2], by rwa [h2]⟩

theorem Held.add {a : Nat} {B C D : ℝ} {x y : K'} (ha : a ≤ E) (hx : Held fin num val a B x) (hy : Held fin num val a C y)
    (hD : (1 + u) * (B + C) ≤ D) (hE : D ≤ 2 ^ E) : num (x + y) = num x + num y ∧ Held fin num val a D (x + y) := by
  have hu := ar.laws.unit_nonneg
  refine add_num ar ha hE hx.fin hy.fin hx.grid hy.grid (le_trans ?_ hD)
  have h1 := ar.laws.add_err (num x) (num y)
  have h2 : |val (num x + num y)| ≤ |val (num x + num y) - (val (num x) + val (num y))| + |val (num x) + val (num y)| := by
    simpa using abs_add_le (val (num x + num y) - (val (num x) + val (num y))) (val (num x) + val (num y))
  have h3 := le_trans (abs_add_le (val (num x)) (val (num y))) (add_le_add hx.mag hy.mag)
  nlinarith

/-- Adding to zero is exact. -/
theorem Held.zeroAdd {a : Nat} {B : ℝ} {x : K'} (ha : a ≤ E) (hx : Held fin num val a B x) (hE : B ≤ 2 ^ E) :
    num (0 + x) = 0 + num x ∧ Held fin num val a B (0 + x) := by
  have hz := ar.range.zero
  have := add_num ar (x := 0) (y := x) (a := a) (B := B) ha hE hz.1 hx.fin
    (by rw [hz.2, ar.laws.zero]; exact .zero a) hx.grid (by rw [hz.2, ar.laws.zero_add]; exact hx.mag)
  rwa [hz.2] at this

theorem Held.sub {a : Nat} {B C D : ℝ} {x y : K'} (ha : a ≤ E) (hx : Held fin num val a B x) (hy : Held fin num val a C y)
    (hD : 2 * (B + C) ≤ D) (hE : D ≤ 2 ^ E) : num (x - y) = num x - num y ∧ Held fin num val a D (x - y) := by
  have hg := ar.fine.sub _ _ a hx.grid hy.grid
  have hm : |val (num x - num y)| ≤ D := by
    have h1 := err_upper (by linarith [ar.u_le]) (ar.laws.sub_err (num x) (num y))
    have h3 := le_trans (abs_sub (val (num x)) (val (num y))) (add_le_add hx.mag hy.mag)
    linarith
  obtain ⟨h1, h2⟩ := ar.range.sub hx.fin hy.fin (hg.inRange ha (le_trans hm hE))
  exact ⟨h2, h1, by rwa [h2], by rwa [h2]⟩

/-- A product: at least `2^-(a+c+1)` unless it is zero. -/
theorem mul_num {a c : Nat} {B C : ℝ} {x y : K'} (hx : fin x) (hx1 : val (num x) ≠ 0 → 1 / 2 ^ a ≤ |val (num x)|)
    (hx2 : |val (num x)| ≤ B) (hy : fin y) (hy1 : val (num y) ≠ 0 → 1 / 2 ^ c ≤ |val (num y)|) (hy2 : |val (num y)| ≤ C)
    (hE : a + c + 1 ≤ E) (hM : 2 * (B * C) ≤ 2 ^ E) :
    num (x * y) = num x * num y ∧ fin (x * y) ∧ (val (num (x * y)) ≠ 0 → 1 / 2 ^ (a + c + 1) ≤ |val (num (x * y))|) ∧
      |val (num (x * y))| ≤ 2 * (B * C) := by
  have h1 := ar.laws.mul_err (num x) (num y)
  have hm : |val (num x * num y)| ≤ 2 * (B * C) := by
    have h2 := err_upper (by linarith [ar.u_le]) h1
    rw [abs_mul] at h2
    have := mul_le_mul hx2 hy2 (abs_nonneg _) (le_trans (abs_nonneg _) hx2)
    linarith
  have hl : val (num x * num y) ≠ 0 → 1 / 2 ^ (a + c + 1) ≤ |val (num x * num y)| := by
    intro h0
    have hxy : val (num x) * val (num y) ≠ 0 := fun h => h0 (err_zero h1 h)
    have hx0 := left_ne_zero_of_mul hxy
    have hy0 := right_ne_zero_of_mul hxy
    have h2 := err_lower ar.u_le h1
    rw [abs_mul] at h2
    have h3 := mul_le_mul (hx1 hx0) (hy1 hy0) (by positivity) (abs_nonneg _)
    have e : (1 : ℝ) / 2 ^ (a + c + 1) = 1 / 2 ^ a * (1 / 2 ^ c) / 2 := by rw [pow_succ, pow_add]; field_simp
    rw [e]
    linarith
  obtain ⟨g1, g2⟩ := ar.range.mul hx hy (inRange_of hE hl (le_trans hm hM))
  rw [g2]
  exact ⟨rfl, g1, hl, hm⟩

/-- Division by the constant. -/
theorem divLn_num {e : Nat} {B : ℝ} {x : K'} (hx : fin x) (hx1 : val (num x) ≠ 0 → 1 / 2 ^ e ≤ |val (num x)|) (hx2 : |val (num x)| ≤ B)
    (hE : e + 2 ≤ E) (hM : 8 * B ≤ 2 ^ E) :
    num (x / ln2) = num x / ln2 ∧ Held fin num val (e + 2 + b) (8 * B) (x / ln2) := by
  have hL := log2_pos
  have hL1 : 1 / 2 ≤ Real.log 2 := by
    have := Real.one_sub_inv_le_log_of_pos (show (0 : ℝ) < 2 by norm_num)
    linarith
  have hL2 : Real.log 2 ≤ 1 := by
    have := Real.log_le_sub_one_of_pos (show (0 : ℝ) < 2 by norm_num)
    linarith
  have hw := ar.laws.acc_nonneg
  have h1 := abs_le.mp ar.laws.ln_err
  have l1 : 1 / 4 ≤ val (LDLog.ln : K) := by nlinarith [h1.1, ar.w_le]
  have l2 : val (LDLog.ln : K) ≤ 2 := by nlinarith [h1.2, ar.w_le]
  have l0 : 0 < val (LDLog.ln : K) := by linarith
  have hd := ar.laws.div_err (num x) LDLog.ln l0.ne'
  have hm : |val (num x / LDLog.ln)| ≤ 8 * B := by
    have h2 := err_upper (by linarith [ar.u_le]) hd
    rw [abs_div, abs_of_pos l0] at h2
    have h3 : |val (num x)| / val (LDLog.ln : K) ≤ 4 * |val (num x)| := by
      rw [div_le_iff₀ l0]
      nlinarith [abs_nonneg (val (num x))]
    linarith
  have hl : val (num x / LDLog.ln) ≠ 0 → 1 / 2 ^ (e + 2) ≤ |val (num x / LDLog.ln)| := by
    intro h0
    have hx0 : val (num x) ≠ 0 := by
      intro h
      refine h0 (err_zero hd ?_)
      rw [h, zero_div]
    have h2 := err_lower ar.u_le hd
    rw [abs_div, abs_of_pos l0] at h2
    have h3 : |val (num x)| / 2 ≤ |val (num x)| / val (LDLog.ln : K) := div_le_div_of_nonneg_left (abs_nonneg _) l0 l2
    have h4 := hx1 hx0
    have e1 : (1 : ℝ) / 2 ^ (e + 2) = 1 / 2 ^ e / 4 := by rw [pow_add]; field_simp; norm_num
    rw [e1]
    linarith
  have hln := ar.range.ln
  have hr := ar.range.div hx hln.1 (by rw [hln.2]; exact l0.ne') (by
    rw [hln.2]; exact inRange_of hE hl (le_trans hm hM))
  rw [hln.2] at hr
  change num (x / LDLog.ln) = num x / LDLog.ln ∧ Held fin num val (e + 2 + b) (8 * B) (x / LDLog.ln)
  refine ⟨hr.2, hr.1, ?_, by rw [hr.2]; exact hm⟩
  rw [hr.2]
  by_cases h0 : val (num x / LDLog.ln) = 0
  · rw [h0]; exact .zero _
  · exact ar.fine.bits _ _ (hl h0)

/-- A quotient. -/
theorem div_num {a e : Nat} {B C : ℝ} {x y : K'} (hx : Held fin num val a B x) (hy : Held fin num val a C y) (hy0 : val (num y) ≠ 0)
    (hB : B ≤ 2 ^ e) (hC : C ≤ 2 ^ e) (hE : a + e + 1 ≤ E) :
    num (x / y) = num x / num y ∧ Held fin num val (a + e + 1 + b) (2 ^ (a + e + 1)) (x / y) := by
  have hd := ar.laws.div_err (num x) (num y) hy0
  have ly := hy.grid.low hy0
  have py : 0 < |val (num y)| := abs_pos.mpr hy0
  have hm : |val (num x / num y)| ≤ 2 ^ (a + e + 1) := by
    have h2 := err_upper (by linarith [ar.u_le]) hd
    rw [abs_div] at h2
    have h3 : |val (num x)| / |val (num y)| ≤ 2 ^ e * 2 ^ a := by
      rw [div_le_iff₀ py]
      have h4 : 1 ≤ 2 ^ a * |val (num y)| := by
        rw [div_le_iff₀ (by positivity)] at ly
        linarith
      have h5 := le_trans hx.mag hB
      have : (2 : ℝ) ^ e * 1 ≤ 2 ^ e * (2 ^ a * |val (num y)|) := mul_le_mul_of_nonneg_left h4 (by positivity)
      linarith
    have e1 : (2 : ℝ) ^ (a + e + 1) = 2 * (2 ^ e * 2 ^ a) := by rw [pow_succ, pow_add]; ring
    rw [e1]
    linarith
  have hl : val (num x / num y) ≠ 0 → 1 / 2 ^ (a + e + 1) ≤ |val (num x / num y)| := by
    intro h0
    have hx0 : val (num x) ≠ 0 := by
      intro h
      refine h0 (err_zero hd ?_)
      rw [h, zero_div]
    have h2 := err_lower ar.u_le hd
    rw [abs_div] at h2
    have h3 : 1 / 2 ^ a / 2 ^ e ≤ |val (num x)| / |val (num y)| :=
      div_le_div₀ (abs_nonneg _) (hx.grid.low hx0) py (le_trans hy.mag hC)
    have e1 : (1 : ℝ) / 2 ^ (a + e + 1) = 1 / 2 ^ a / 2 ^ e / 2 := by rw [pow_succ, pow_add]; field_simp
    rw [e1]
    linarith
  have hr := ar.range.div hx.fin hy.fin hy0 (inRange_of hE hl (le_trans hm (pow_le_pow_right₀ (by norm_num) hE)))
  refine ⟨hr.2, hr.1, ?_, by rw [hr.2]; exact hm⟩
  rw [hr.2]
  by_cases h0 : val (num x / num y) = 0
  · rw [h0]; exact .zero _
  · exact ar.fine.bits _ _ (hl h0)

end
end Lp
