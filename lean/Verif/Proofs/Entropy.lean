import Verif.Spec.Entropy
import Verif.Model.Complexity
import Verif.Model.Quality
import Mathlib.Algebra.Order.BigOperators.Group.Finset

/-!
# The measures of `complexity.cpp` over the reals
-/

namespace Lp
open Spec
variable {ι : Type}

/-- Guarded `x log₂ x`: what `entropyReduction(x, 0)` computes. -/
noncomputable def er0 (x : ℝ) : ℝ := entropyReduction x 0

/-- Quality contributed by one series with sum `S`, information `I` and `n` values. -/
noncomputable def codeQ (S I : ℝ) (n : Int) : Quality ℝ := ⟨entropyReduction S I, divergence n S I⟩

theorem entropy_eq (x : ℝ) : entropy x = xlog2 x := by
  change x * Real.log x / Real.log 2 = x * (Real.log x / Real.log 2)
  rw [mul_div_assoc]

theorem entropyReduction_eq (x e : ℝ) : entropyReduction x e = if 0 < x then xlog2 x - e else 0 := by
  rw [← entropy_eq]; rfl

theorem xlog2_zero : xlog2 0 = 0 := by simp [xlog2]

theorem er0_eq {x : ℝ} (h : 0 ≤ x) : er0 x = xlog2 x := by
  unfold er0
  rw [entropyReduction_eq]
  rcases lt_or_eq_of_le h with h | h
  · rw [if_pos h, sub_zero]
  · rw [← h, if_neg (lt_irrefl _), xlog2_zero]

theorem divergence_eq (n : Int) (S I : ℝ) : divergence n S I = S * Real.logb 2 n - entropyReduction S I := by
  change S * Real.log n / Real.log 2 - _ = _
  rw [mul_div_assoc]
  rfl

theorem gain_code {s : Finset ι} {v : ι → ℝ} (hv : ∀ x ∈ s, 0 ≤ v x) :
    entropyReduction (∑ x ∈ s, v x) (∑ x ∈ s, er0 (v x)) = gainOver s v := by
  rw [entropyReduction_eq, Finset.sum_congr rfl (fun x hx => er0_eq (hv x hx))]
  unfold gainOver
  have hS := Finset.sum_nonneg hv
  split
  · rfl
  · rename_i h
    have h0 : ∑ x ∈ s, v x = 0 := le_antisymm (not_lt.mp h) hS
    rw [h0]
    have hz := (Finset.sum_eq_zero_iff_of_nonneg hv).mp h0
    rw [Finset.sum_eq_zero (fun x hx => by rw [hz x hx, xlog2_zero]), xlog2_zero, sub_zero]

/-- For non-negative values the code computes the specified measures. -/
theorem codeQ_eq {s : Finset ι} {v : ι → ℝ} (hv : ∀ x ∈ s, 0 ≤ v x) {n : Int} (hn : n = s.card) :
    codeQ (∑ x ∈ s, v x) (∑ x ∈ s, er0 (v x)) n = ⟨gainOver s v, lossOver s v⟩ := by
  unfold codeQ
  rw [divergence_eq, gain_code hv, hn]
  rfl

theorem er0_glog (x : ℝ) : er0 x = glog2 x := by
  unfold er0 glog2; rw [entropyReduction_eq, sub_zero]

theorem codeQ_any {s : Finset ι} {v : ι → ℝ} {n : Int} (hn : n = s.card) :
    codeQ (∑ x ∈ s, v x) (∑ x ∈ s, er0 (v x)) n = ⟨gainAny s v, lossAny s v⟩ := by
  unfold codeQ lossAny gainAny
  simp only [divergence_eq, entropyReduction_eq, er0_glog, hn]
  rfl

/-- A single value has gain and loss 0, whatever its sign. -/
theorem codeQ_single (x : ℝ) : codeQ x (er0 x) 1 = ⟨0, 0⟩ := by
  have h : entropyReduction x (er0 x) = 0 := by
    unfold er0
    rw [entropyReduction_eq, entropyReduction_eq]
    split <;> ring
  unfold codeQ
  rw [divergence_eq, h]
  simp

/-- Sum of the qualities of the first `m` series. -/
noncomputable def qSeries (m : Nat) (c : Nat → Quality ℝ) : Quality ℝ :=
  ⟨∑ k ∈ Finset.range m, (c k).gain, ∑ k ∈ Finset.range m, (c k).loss⟩

theorem qSeries_zero (c : Nat → Quality ℝ) : qSeries 0 c = ⟨0, 0⟩ := by simp [qSeries]

theorem qSeries_succ (m : Nat) (c : Nat → Quality ℝ) :
    qSeries (m + 1) c = ⟨(qSeries m c).gain + (c m).gain, (qSeries m c).loss + (c m).loss⟩ := by
  simp [qSeries, Finset.sum_range_succ]

theorem add_code (q : Quality ℝ) (S I : ℝ) (n : Int) :
    (q.addToGain (entropyReduction S I)).addToLoss (divergence n S I) =
      ⟨q.gain + (codeQ S I n).gain, q.loss + (codeQ S I n).loss⟩ := rfl

theorem qSeries_eq {ι : Type} {m : Nat} {s : Finset ι} {V : Nat → ι → ℝ} (hv : ∀ k < m, ∀ x ∈ s, 0 ≤ V k x) {n : Int}
    (hn : n = s.card) :
    qSeries m (fun k => codeQ (∑ x ∈ s, V k x) (∑ x ∈ s, er0 (V k x)) n) = ⟨gainSeries m s V, lossSeries m s V⟩ := by
  unfold qSeries gainSeries lossSeries
  have h : ∀ k ∈ Finset.range m, codeQ (∑ x ∈ s, V k x) (∑ x ∈ s, er0 (V k x)) n = ⟨gainOver s (V k), lossOver s (V k)⟩ :=
    fun k hk => codeQ_eq (hv k (Finset.mem_range.mp hk)) hn
  congr 1
  · exact Finset.sum_congr rfl (fun k hk => congrArg Quality.gain (h k hk))
  · exact Finset.sum_congr rfl (fun k hk => congrArg Quality.loss (h k hk))

theorem qSeries_any {ι : Type} {m : Nat} {s : Finset ι} {V : Nat → ι → ℝ} {n : Int} (hn : n = s.card) :
    qSeries m (fun k => codeQ (∑ x ∈ s, V k x) (∑ x ∈ s, er0 (V k x)) n) =
      ⟨∑ k ∈ Finset.range m, gainAny s (V k), ∑ k ∈ Finset.range m, lossAny s (V k)⟩ := by
  unfold qSeries
  simp only [codeQ_any hn]

end Lp
