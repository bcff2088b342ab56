import Verif.Spec.RoundedLog
import Verif.Spec.SumOf
import Verif.Proofs.Entropy
import Mathlib.Analysis.SpecialFunctions.Log.Deriv

/-!
# Rounding errors of the qualities
-/

namespace Lp
open Spec
open scoped BigOperators

/-- `x` is computed for `v`, with error at most `(g-1)*m`, where `m` bounds the sizes of the terms. -/
structure Close (g x v m : ℝ) : Prop where
  one : 1 ≤ g
  err : |x - v| ≤ (g - 1) * m
  mag : |v| ≤ m

namespace Close
variable {g g' x x' v v' m m' : ℝ}

theorem pos (h : Close g x v m) : 0 ≤ m := le_trans (abs_nonneg _) h.mag

theorem size (h : Close g x v m) : |x| ≤ g * m := by
  have : |x| ≤ |x - v| + |v| := by simpa using abs_add_le (x - v) v
  linarith [h.err, h.mag]

theorem mono (h : Close g x v m) (hg : g ≤ g') : Close g' x v m :=
  ⟨le_trans h.one hg, le_trans h.err (mul_le_mul_of_nonneg_right (by linarith) h.pos), h.mag⟩

theorem wider (h : Close g x v m) (hm : m ≤ m') : Close g x v m' :=
  ⟨h.one, le_trans h.err (mul_le_mul_of_nonneg_left hm (by linarith [h.one])), le_trans h.mag hm⟩

theorem exact (x : ℝ) : Close 1 x x |x| := ⟨le_refl _, by simp, le_refl _⟩

theorem zero (hg : 1 ≤ g) (hm : 0 ≤ m) : Close g 0 0 m := ⟨hg, by simpa using mul_nonneg (by linarith) hm, by simpa using hm⟩

theorem round {u y : ℝ} (hu : 0 ≤ u) (h : Close g x v m) (hy : |y - x| ≤ u * |x|) : Close (g * (1 + u)) y v m := by
  refine ⟨by nlinarith [h.one], ?_, h.mag⟩
  have h2 : |y - v| ≤ |y - x| + |x - v| := by simpa using abs_add_le (y - x) (x - v)
  have h3 : u * |x| ≤ u * (g * m) := mul_le_mul_of_nonneg_left h.size hu
  linarith [h.err]

theorem add (h : Close g x v m) (h' : Close g x' v' m') : Close g (x + x') (v + v') (m + m') := by
  refine ⟨h.one, ?_, le_trans (abs_add_le _ _) (add_le_add h.mag h'.mag)⟩
  rw [show x + x' - (v + v') = (x - v) + (x' - v') by ring]
  have := abs_add_le (x - v) (x' - v')
  linarith [h.err, h'.err]

theorem sub (h : Close g x v m) (h' : Close g x' v' m') : Close g (x - x') (v - v') (m + m') := by
  refine ⟨h.one, ?_, le_trans (abs_sub _ _) (add_le_add h.mag h'.mag)⟩
  rw [show x - x' - (v - v') = (x - v) - (x' - v') by ring]
  have := abs_sub (x - v) (x' - v')
  linarith [h.err, h'.err]

theorem mul (h : Close g x v m) (h' : Close g' x' v' m') : Close (g * g') (x * x') (v * v') (m * m') := by
  refine ⟨by nlinarith [h.one, h'.one], ?_, by rw [abs_mul]; exact mul_le_mul h.mag h'.mag (abs_nonneg _) h.pos⟩
  rw [show x * x' - v * v' = (x - v) * x' + v * (x' - v') by ring]
  refine le_trans (abs_add_le _ _) ?_
  rw [abs_mul, abs_mul]
  have h1 : |x - v| * |x'| ≤ ((g - 1) * m) * (g' * m') :=
    mul_le_mul h.err h'.size (abs_nonneg _) (mul_nonneg (by linarith [h.one]) h.pos)
  have h2 : |v| * |x' - v'| ≤ m * ((g' - 1) * m') := mul_le_mul h.mag h'.err (abs_nonneg _) h.pos
  nlinarith

end Close

theorem log2_pos : 0 < Real.log 2 := Real.log_pos (by norm_num)

/-- Logarithm of a number known up to a factor. -/
theorem log_close {g x v : ℝ} (h : Close g x v v) (hv : 0 < v) (hg : g ≤ 3 / 2) : 0 < x ∧ |Real.log x - Real.log v| ≤ 2 * (g - 1) := by
  have h1 := abs_le.mp h.err
  have hg1 := h.one
  have hx : v / 2 ≤ x := by nlinarith [h1.1]
  have hx0 : 0 < x := by linarith
  refine ⟨hx0, ?_⟩
  rw [← Real.log_div hx0.ne' hv.ne']
  have ht : 0 < x / v := div_pos hx0 hv
  have h2 : x / v - 1 ≤ g - 1 := by
    rw [sub_le_sub_iff_right, div_le_iff₀ hv]; linarith [h1.2]
  have h3 : -(g - 1) ≤ x / v - 1 := by
    have : (2 - g) ≤ x / v := by rw [le_div_iff₀ hv]; linarith [h1.1]
    linarith
  rw [abs_le]
  constructor
  · have h4 := Real.one_sub_inv_le_log_of_pos ht
    have h5 : (x / v)⁻¹ ≤ 1 + 2 * (g - 1) := by
      rw [inv_le_iff_one_le_mul₀ ht]
      nlinarith
    linarith
  · have := Real.log_le_sub_one_of_pos ht
    linarith

section
variable {K : Type} [LDLog K] {val : K → ℝ} {u w : ℝ}

/-- The error factor after `k` roundings. -/
noncomputable def factor (u w : ℝ) (k : Nat) : ℝ := (1 + w) ^ 3 * (1 + u) ^ k

theorem factor_one (hu : 0 ≤ u) (hw : 0 ≤ w) (k : Nat) : 1 ≤ factor u w k := by
  unfold factor
  have h1 : 1 ≤ (1 + w) ^ 3 := one_le_pow₀ (by linarith)
  have h2 : 1 ≤ (1 + u) ^ k := one_le_pow₀ (by linarith)
  nlinarith

theorem factor_mono (hu : 0 ≤ u) (hw : 0 ≤ w) {k k' : Nat} (h : k ≤ k') : factor u w k ≤ factor u w k' :=
  mul_le_mul_of_nonneg_left (pow_le_pow_right₀ (by linarith) h) (by positivity)

theorem factor_succ (k : Nat) : factor u w k * (1 + u) = factor u w (k + 1) := by
  unfold factor; rw [pow_succ]; ring

theorem scale_nonneg {x : ℝ} (h : 0 ≤ x) : 0 ≤ scale x := by
  unfold scale; have := log2_pos; positivity

theorem scale_mag {x : ℝ} (h : 0 ≤ x) : |xlog2 x| ≤ scale x := by
  unfold xlog2 scale Real.logb
  rw [abs_mul, abs_of_nonneg h, abs_div, abs_of_pos log2_pos, mul_div_assoc]
  refine mul_le_mul_of_nonneg_left ?_ h
  exact div_le_div_of_nonneg_right (by linarith) log2_pos.le

variable (laws : LogLaws val u w)
include laws

/-- A sum of values known up to errors. -/
theorem sumOf_close {ι : Type} [DecidableEq ι] {f : ι → K} {v μ : ι → ℝ} {g : ℝ} {s : Finset ι} {x : K} (h : SumOf f s x)
    (hg : 1 ≤ g) (hf : ∀ i ∈ s, Close g (val (f i)) (v i) (μ i)) :
    Close (g * (1 + u) ^ (s.card - 1)) (val x) (∑ i ∈ s, v i) (∑ i ∈ s, μ i) := by
  have hu := laws.unit_nonneg
  induction h with
  | none =>
    rw [laws.zero]
    simpa using Close.zero hg (le_refl _)
  | one i => simpa using hf i (by simp)
  | @add s t x y hd hx hy ih1 ih2 =>
    have h1 := ih1 (fun i hi => hf i (by simp [hi]))
    have h2 := ih2 (fun i hi => hf i (by simp [hi]))
    rw [Finset.sum_union hd, Finset.sum_union hd, Finset.card_union_of_disjoint hd]
    have hz : ∀ (z : K) (m : ℝ), Close m (val z) 0 0 → val z = val 0 := by
      intro z m hc
      have := hc.err
      simp only [sub_zero, mul_zero] at this
      rw [laws.zero]
      exact abs_nonpos_iff.mp this
    rcases s.eq_empty_or_nonempty with hs | hs
    · subst hs
      simp only [Finset.sum_empty, zero_add, Finset.card_empty] at h1 ⊢
      have e := hz x _ h1
      have : val (x + y) = val y := by
        rw [← laws.zero_add y]
        exact le_antisymm (laws.add_mono _ _ _ _ e.le (le_refl _)) (laws.add_mono _ _ _ _ e.ge (le_refl _))
      rw [this]; exact h2
    rcases t.eq_empty_or_nonempty with ht | ht
    · subst ht
      simp only [Finset.sum_empty, add_zero, Finset.card_empty] at h2 ⊢
      have e := hz y _ h2
      have : val (x + y) = val x := by
        rw [← laws.add_zero x]
        exact le_antisymm (laws.add_mono _ _ _ _ (le_refl _) e.le) (laws.add_mono _ _ _ _ (le_refl _) e.ge)
      rw [this]; exact h1
    · have c1 := hs.card_pos
      have c2 := ht.card_pos
      have hp : ∀ k, k ≤ s.card + t.card - 2 → g * (1 + u) ^ k ≤ g * (1 + u) ^ (s.card + t.card - 2) := fun k hk =>
        mul_le_mul_of_nonneg_left (pow_le_pow_right₀ (by linarith) hk) (by linarith)
      have h3 := (h1.mono (hp _ (by omega))).add (h2.mono (hp _ (by omega)))
      have h4 := h3.round hu (laws.add_err x y)
      rw [mul_assoc, ← pow_succ, show s.card + t.card - 2 + 1 = s.card + t.card - 1 by omega] at h4
      exact h4

theorem log_val {g v : ℝ} {x : K} (h : Close g (val x) v v) (hv : 0 < v) (hg : g ≤ 3 / 2) :
    Close ((1 + w) * g ^ 2) (val (LDLog.log x)) (Real.log v) (1 + |Real.log v|) := by
  have hw := laws.acc_nonneg
  obtain ⟨hx, hl⟩ := log_close h hv hg
  have h1 := laws.log_err x hx
  have hg1 := h.one
  have hpos := abs_nonneg (Real.log v)
  refine ⟨by nlinarith, ?_, by linarith⟩
  have h2 : |val (LDLog.log x) - Real.log v| ≤ |val (LDLog.log x) - Real.log (val x)| + |Real.log (val x) - Real.log v| := by
    simpa using abs_add_le (val (LDLog.log x) - Real.log (val x)) (Real.log (val x) - Real.log v)
  have h3 : |Real.log (val x)| ≤ |Real.log (val x) - Real.log v| + |Real.log v| := by
    simpa using abs_add_le (Real.log (val x) - Real.log v) (Real.log v)
  have h4 : w * (1 + |Real.log (val x)|) ≤ w * (1 + |Real.log v| + 2 * (g - 1)) :=
    mul_le_mul_of_nonneg_left (by linarith) hw
  have h5 : (1 + w) * (1 + 2 * (g - 1)) ≤ (1 + w) * g ^ 2 := mul_le_mul_of_nonneg_left (by nlinarith) (by linarith)
  have h6 : ((1 + w) * (1 + 2 * (g - 1)) - 1) * (1 + |Real.log v|) ≤ ((1 + w) * g ^ 2 - 1) * (1 + |Real.log v|) :=
    mul_le_mul_of_nonneg_right (by linarith) (by linarith)
  refine le_trans ?_ h6
  nlinarith [mul_nonneg hw (show 0 ≤ g - 1 by linarith), mul_nonneg (mul_nonneg hw (show 0 ≤ g - 1 by linarith)) hpos,
    mul_nonneg (show 0 ≤ g - 1 by linarith) hpos]

/-- Division by the constant. -/
theorem div_ln {g v m : ℝ} {x : K} (hw2 : w ≤ 1 / 2) (h : Close g (val x) v m) :
    Close (g * (1 + 2 * w) * (1 + u)) (val (x / ln2)) (v / Real.log 2) (m / Real.log 2) := by
  have hw := laws.acc_nonneg
  have L := log2_pos
  have h1 := abs_le.mp laws.ln_err
  have hl : Real.log 2 / 2 ≤ val (LDLog.ln : K) := by nlinarith [h1.1]
  have hl0 : 0 < val (LDLog.ln : K) := by linarith
  have h2 : Close (1 + 2 * w) (1 / val (LDLog.ln : K)) (1 / Real.log 2) (1 / Real.log 2) := by
    refine ⟨by linarith, ?_, by rw [abs_of_pos (by positivity)]⟩
    rw [div_sub_div _ _ hl0.ne' L.ne', abs_div, abs_of_pos (mul_pos hl0 L), one_mul, mul_one, abs_sub_comm]
    rw [div_le_iff₀ (mul_pos hl0 L)]
    have h3 := laws.ln_err
    have e : (1 + 2 * w - 1) * (1 / Real.log 2) * (val (LDLog.ln : K) * Real.log 2) = 2 * w * val (LDLog.ln : K) := by
      field_simp
      ring
    rw [e]
    nlinarith
  have h3 := h.mul h2
  rw [mul_one_div, mul_one_div, mul_one_div] at h3
  exact h3.round laws.unit_nonneg (laws.div_err x LDLog.ln hl0.ne')

/-- `entropy`. -/
theorem entropy_close {g v : ℝ} {x : K} (hw2 : w ≤ 1 / 2) (h : Close g (val x) v v) (hv : 0 < v) (hg : g ≤ 3 / 2) :
    Close ((1 + w) ^ 3 * (g ^ 3 * (1 + u) ^ 2)) (val (entropy x)) (xlog2 v) (scale v) := by
  have hw := laws.acc_nonneg
  have hu := laws.unit_nonneg
  have hg1 := h.one
  have h1 := (h.mul (log_val laws h hv hg)).round hu (laws.mul_err x (LDLog.log x))
  have h2 := div_ln laws hw2 h1
  have e1 : xlog2 v = v * Real.log v / Real.log 2 := by unfold xlog2 Real.logb; ring
  rw [e1]
  refine h2.mono ?_
  have e2 : g * ((1 + w) * g ^ 2) * (1 + u) * (1 + 2 * w) * (1 + u) = ((1 + w) * (1 + 2 * w)) * (g ^ 3 * (1 + u) ^ 2) := by ring
  rw [e2]
  refine mul_le_mul_of_nonneg_right ?_ (by positivity)
  nlinarith [mul_nonneg hw hw, mul_nonneg (mul_nonneg hw hw) hw]

/-- The measure of a single value. -/
theorem single_close {x : K} (hw2 : w ≤ 1 / 2) (hx : 0 ≤ val x) :
    Close (factor u w 2) (val (entropyReduction x 0)) (xlog2 (val x)) (scale (val x)) := by
  have hw := laws.acc_nonneg
  have hu := laws.unit_nonneg
  unfold entropyReduction
  split
  · rename_i hp
    rw [laws.lt_iff, laws.zero] at hp
    rw [laws.sub_zero]
    have h := Close.exact (val x)
    rw [abs_of_pos hp] at h
    have := entropy_close laws hw2 h hp (by norm_num)
    unfold factor
    simpa using this
  · rename_i hp
    rw [laws.lt_iff, laws.zero] at hp
    have : val x = 0 := le_antisymm (not_lt.mp hp) hx
    rw [this, xlog2_zero, laws.zero]
    exact Close.zero (factor_one hu hw 2) (scale_nonneg (le_refl _))

variable {ι : Type} [DecidableEq ι] {f : ι → K} {s : Finset ι} {S I : K}

theorem sum_close (hx : ∀ i ∈ s, 0 ≤ val (f i)) (hS : SumOf f s S) :
    Close ((1 + u) ^ (s.card - 1)) (val S) (∑ i ∈ s, val (f i)) (∑ i ∈ s, val (f i)) := by
  have := sumOf_close laws hS (v := fun i => val (f i)) (μ := fun i => val (f i)) (g := 1) (le_refl _) (fun i hi => by
    have := Close.exact (val (f i))
    rwa [abs_of_nonneg (hx i hi)] at this)
  rwa [one_mul] at this

/-- The gain of one series. -/
theorem gain_close (hw2 : w ≤ 1 / 2) (hs : s.Nonempty) (hn : (1 + u) ^ (s.card - 1) ≤ 3 / 2) (hx : ∀ i ∈ s, 0 ≤ val (f i))
    (hS : SumOf f s S) (hI : SumOf (fun i => entropyReduction (f i) 0) s I) :
    Close (factor u w (3 * s.card)) (val (entropyReduction S I)) (gainOver s (fun i => val (f i)))
      (gainScale s (fun i => val (f i))) := by
  have hw := laws.acc_nonneg
  have hu := laws.unit_nonneg
  have hc := hs.card_pos
  have h1 := sum_close laws hx hS
  have h0 := Finset.sum_nonneg hx
  unfold entropyReduction
  split
  · rename_i hp
    rw [laws.lt_iff, laws.zero] at hp
    have hv : 0 < ∑ i ∈ s, val (f i) := by
      rcases lt_or_eq_of_le h0 with h | h
      · exact h
      · rw [← h] at h1
        have := h1.err
        simp only [sub_zero, mul_zero] at this
        rw [abs_nonpos_iff.mp this] at hp
        exact absurd hp (lt_irrefl _)
    have h2 := entropy_close laws hw2 h1 hv hn
    have h3 := sumOf_close laws hI (factor_one hu hw 2) (fun i hi => single_close laws hw2 (hx i hi))
    rw [← pow_mul, ← pow_add] at h2
    have e3 : factor u w 2 * (1 + u) ^ (s.card - 1) = factor u w (s.card + 1) := by
      unfold factor; rw [mul_assoc, ← pow_add]; congr 2; omega
    rw [e3] at h3
    have h4 : Close (factor u w (3 * s.card - 1)) _ _ _ := h2.mono (factor_mono hu hw (k' := 3 * s.card - 1) (by omega))
    have h5 := h3.mono (factor_mono hu hw (k' := 3 * s.card - 1) (by omega))
    have h6 := (h4.sub h5).round hu (laws.sub_err _ _)
    rw [factor_succ, show 3 * s.card - 1 + 1 = 3 * s.card by omega] at h6
    exact h6
  · rename_i hp
    rw [laws.lt_iff, laws.zero] at hp
    have hz : ∑ i ∈ s, val (f i) = 0 := by
      rcases lt_or_eq_of_le h0 with h | h
      · exact absurd (log_close h1 h hn).1 hp
      · exact h.symm
    have hall := (Finset.sum_eq_zero_iff_of_nonneg hx).mp hz
    have e : gainOver s (fun i => val (f i)) = 0 := by
      unfold gainOver
      rw [hz, xlog2_zero, Finset.sum_eq_zero (fun i hi => by simp only [hall i hi, xlog2_zero]), sub_zero]
    rw [e, laws.zero]
    refine Close.zero (factor_one hu hw _) ?_
    unfold gainScale
    exact add_nonneg (scale_nonneg h0) (Finset.sum_nonneg (fun i hi => scale_nonneg (hx i hi)))

/-- The loss of one series. -/
theorem loss_close (hw2 : w ≤ 1 / 2) (hs : s.Nonempty) (hb : s.card < 2147483648) (hn : (1 + u) ^ (s.card - 1) ≤ 3 / 2)
    (hx : ∀ i ∈ s, 0 ≤ val (f i)) (hS : SumOf f s S) (hI : SumOf (fun i => entropyReduction (f i) 0) s I) :
    Close (factor u w (3 * s.card + 1)) (val (divergence (s.card : Nat) S I)) (lossOver s (fun i => val (f i)))
      (lossScale s (fun i => val (f i))) := by
  have hw := laws.acc_nonneg
  have hu := laws.unit_nonneg
  have hc := hs.card_pos
  have h1 := sum_close laws hx hS
  have h2 := gain_close laws hw2 hs hn hx hS hI
  have hl : Close (1 + w) (val (LDLog.logInt ((s.card : Nat) : Int) : K)) (Real.log s.card) (1 + |Real.log s.card|) := by
    refine ⟨by linarith, ?_, by linarith [abs_nonneg (Real.log s.card)]⟩
    have := laws.logInt_err ((s.card : Nat) : Int) (by exact_mod_cast hc) (by exact_mod_cast hb)
    simpa using this
  have h3 := div_ln laws hw2 ((h1.mul hl).round hu (laws.mul_err S (LDLog.logInt ((s.card : Nat) : Int))))
  have h4 : Close (factor u w (3 * s.card)) (val (S * LDLog.logInt ((s.card : Nat) : Int) / ln2))
      ((∑ i ∈ s, val (f i)) * Real.log s.card / Real.log 2)
      ((∑ i ∈ s, val (f i)) * (1 + |Real.log s.card|) / Real.log 2) := by
    refine h3.mono ?_
    have e : (1 + u) ^ (s.card - 1) * (1 + w) * (1 + u) * (1 + 2 * w) * (1 + u) =
        ((1 + w) * (1 + 2 * w)) * (1 + u) ^ (s.card + 1) := by
      rw [show s.card + 1 = s.card - 1 + 2 by omega, pow_add]; ring
    rw [e]
    unfold factor
    refine mul_le_mul ?_ (pow_le_pow_right₀ (by linarith) (by omega)) (by positivity) (by positivity)
    nlinarith [mul_nonneg hw hw, mul_nonneg (mul_nonneg hw hw) hw]
  have h5 := (h4.sub h2).round hu (laws.sub_err _ _)
  rw [factor_succ] at h5
  have e : lossOver s (fun i => val (f i)) = (∑ i ∈ s, val (f i)) * Real.log s.card / Real.log 2 - gainOver s (fun i => val (f i)) := by
    unfold lossOver Real.logb; rw [mul_div_assoc]
  rw [e]
  exact h5

/-- The quality of a part. -/
theorem measured_close {V : Nat → ι → K} {m : Nat} {q : Quality K} (hw2 : w ≤ 1 / 2) (hs : s.Nonempty) (hb : s.card < 2147483648)
    (hn : (1 + u) ^ (s.card - 1) ≤ 3 / 2) (hx : ∀ k < m, ∀ i ∈ s, 0 ≤ val (V k i)) (hq : Measured V s (s.card : Nat) m q) :
    Close (factor u w (3 * s.card + m)) (val q.gain) (gainSeries m s (fun k i => val (V k i)))
      (∑ k ∈ Finset.range m, gainScale s (fun i => val (V k i))) ∧
    Close (factor u w (3 * s.card + 1 + m)) (val q.loss) (lossSeries m s (fun k i => val (V k i)))
      (∑ k ∈ Finset.range m, lossScale s (fun i => val (V k i))) := by
  have hw := laws.acc_nonneg
  have hu := laws.unit_nonneg
  unfold gainSeries lossSeries
  induction hq with
  | zero =>
    simp only [Finset.range_zero, Finset.sum_empty, laws.zero]
    exact ⟨Close.zero (factor_one hu hw _) (le_refl _), Close.zero (factor_one hu hw _) (le_refl _)⟩
  | @next k q S I hq hS hI ih =>
    obtain ⟨h1, h2⟩ := ih (fun j hj => hx j (by omega))
    have g1 := gain_close laws hw2 hs hn (hx k (by omega)) hS hI
    have g2 := loss_close laws hw2 hs hb hn (hx k (by omega)) hS hI
    simp only [Finset.sum_range_succ]
    constructor
    · have := (h1.add (g1.mono (factor_mono hu hw (by omega)))).round hu (laws.add_err _ _)
      rw [factor_succ] at this
      exact this
    · have := (h2.add (g2.mono (factor_mono hu hw (by omega)))).round hu (laws.add_err _ _)
      rw [factor_succ] at this
      exact this
end
end Lp
