import Verif.Spec.Entropy
import Mathlib.Analysis.SpecialFunctions.Log.NegMulLog
import Mathlib.Analysis.Convex.Jensen
import Mathlib.Algebra.Order.BigOperators.Group.Finset

/-!
# Inequalities between the entropy measures
-/

namespace Lp
open Spec
variable {ι κ : Type}

theorem xlog2_eq (x : ℝ) : xlog2 x = x * Real.log x / Real.log 2 := by
  unfold xlog2 Real.logb; ring

theorem log2_pos : 0 < Real.log 2 := Real.log_pos (by norm_num)

theorem xlog2_zero' : xlog2 0 = 0 := by simp [xlog2]

/-- Jensen for `x log₂ x` with positive weights. -/
theorem xlog2_jensen {t : Finset κ} {n x : κ → ℝ} (hn : ∀ i ∈ t, 0 < n i) (hx : ∀ i ∈ t, 0 ≤ x i) (ht : t.Nonempty) :
    (∑ i ∈ t, n i) * xlog2 ((∑ i ∈ t, n i * x i) / ∑ i ∈ t, n i) ≤ ∑ i ∈ t, n i * xlog2 (x i) ∧
    ((∑ i ∈ t, n i) * xlog2 ((∑ i ∈ t, n i * x i) / ∑ i ∈ t, n i) = ∑ i ∈ t, n i * xlog2 (x i) ↔
      ∀ j ∈ t, ∀ k ∈ t, x j = x k) := by
  have hN : 0 < ∑ i ∈ t, n i := Finset.sum_pos hn ht
  obtain ⟨N, hNe⟩ : ∃ N, N = ∑ i ∈ t, n i := ⟨_, rfl⟩
  rw [← hNe] at hN ⊢
  have h1 : ∑ i ∈ t, n i / N = 1 := by
    rw [← Finset.sum_div, ← hNe]; exact div_self hN.ne'
  have hw : ∀ i ∈ t, 0 < n i / N := fun i hi => div_pos (hn i hi) hN
  have e1 : ∑ i ∈ t, (n i / N) • x i = (∑ i ∈ t, n i * x i) / N := by
    rw [Finset.sum_div]; exact Finset.sum_congr rfl (fun i _ => by rw [smul_eq_mul]; ring)
  have e2 : ∑ i ∈ t, (n i / N) • (fun x => x * Real.log x) (x i) = (∑ i ∈ t, n i * xlog2 (x i)) * Real.log 2 / N := by
    rw [Finset.sum_mul, Finset.sum_div]
    refine Finset.sum_congr rfl (fun i _ => ?_)
    rw [smul_eq_mul, xlog2_eq]
    have := log2_pos.ne'
    field_simp
  have e3 : ((∑ i ∈ t, n i * x i) / N) * Real.log ((∑ i ∈ t, n i * x i) / N) =
      N * xlog2 ((∑ i ∈ t, n i * x i) / N) * Real.log 2 / N := by
    rw [xlog2_eq]
    have := log2_pos.ne'
    field_simp
  have hc : 0 < Real.log 2 / N := div_pos log2_pos hN
  constructor
  · have h := Real.convexOn_mul_log.map_sum_le (fun i hi => (hw i hi).le) h1 (p := x) (fun i hi => hx i hi)
    rw [e1, e2, e3, mul_div_assoc, mul_div_assoc] at h
    exact le_of_mul_le_mul_right h hc
  · have h := Real.strictConvexOn_mul_log.map_sum_eq_iff_of_pos hw h1 (p := x) (fun i hi => hx i hi)
    rw [e1, e2, e3, mul_div_assoc, mul_div_assoc] at h
    constructor
    · intro he j hj k hk
      exact h.mp (by rw [he]) hj hk
    · intro he
      have := h.mpr (fun j hj k hk => he j hj k hk)
      exact mul_right_cancel₀ hc.ne' this

/-- Loss as the Jensen gap. -/
theorem loss_gap {s : Finset ι} {v : ι → ℝ} (hs : s.Nonempty) (hv : ∀ x ∈ s, 0 ≤ v x) :
    lossOver s v = ∑ x ∈ s, xlog2 (v x) - s.card * xlog2 ((∑ x ∈ s, v x) / s.card) := by
  have hn : (0 : ℝ) < s.card := by exact_mod_cast hs.card_pos
  have hS : 0 ≤ ∑ x ∈ s, v x := Finset.sum_nonneg hv
  unfold lossOver gainOver
  obtain ⟨S, hSe⟩ : ∃ S, S = ∑ x ∈ s, v x := ⟨_, rfl⟩
  rw [← hSe] at hS ⊢
  rcases eq_or_lt_of_le hS with h | h
  · rw [← h]; simp [xlog2]
  · have : (s.card : ℝ) * xlog2 (S / s.card) = xlog2 S - S * Real.logb 2 s.card := by
      unfold xlog2
      rw [Real.logb_div h.ne' hn.ne']
      field_simp
    rw [this]; ring

theorem loss_nonneg {s : Finset ι} {v : ι → ℝ} (hv : ∀ x ∈ s, 0 ≤ v x) : 0 ≤ lossOver s v := by
  rcases s.eq_empty_or_nonempty with rfl | hs
  · simp [lossOver, gainOver, xlog2]
  · rw [loss_gap hs hv]
    have h := (xlog2_jensen (t := s) (n := fun _ => 1) (x := v) (fun _ _ => one_pos) hv hs).1
    simp only [one_mul, Finset.sum_const, nsmul_eq_mul, mul_one] at h
    linarith

/-- Loss 0 means homogeneous. -/
theorem loss_zero_iff {s : Finset ι} {v : ι → ℝ} (hv : ∀ x ∈ s, 0 ≤ v x) :
    lossOver s v = 0 ↔ ∀ x ∈ s, ∀ y ∈ s, v x = v y := by
  rcases s.eq_empty_or_nonempty with rfl | hs
  · simp [lossOver, gainOver, xlog2]
  · rw [loss_gap hs hv]
    have h := (xlog2_jensen (t := s) (n := fun _ => 1) (x := v) (fun _ _ => one_pos) hv hs).2
    simp only [one_mul, Finset.sum_const, nsmul_eq_mul, mul_one] at h
    rw [← h, sub_eq_zero, eq_comm]

/-- Gain as a sum of non-negative terms. -/
theorem gain_terms (s : Finset ι) (v : ι → ℝ) :
    gainOver s v = ∑ x ∈ s, v x * (Real.logb 2 (∑ y ∈ s, v y) - Real.logb 2 (v x)) := by
  unfold gainOver xlog2
  rw [Finset.sum_mul, ← Finset.sum_sub_distrib]
  exact Finset.sum_congr rfl (fun x _ => by ring)

theorem gain_term_nonneg {a S : ℝ} (ha : 0 ≤ a) (h : a ≤ S) : 0 ≤ a * (Real.logb 2 S - Real.logb 2 a) := by
  rcases eq_or_lt_of_le ha with h0 | h0
  · rw [← h0, zero_mul]
  · exact mul_nonneg ha (sub_nonneg.mpr (Real.logb_le_logb_of_le (by norm_num) h0 h))

theorem gain_nonneg {s : Finset ι} {v : ι → ℝ} (hv : ∀ x ∈ s, 0 ≤ v x) : 0 ≤ gainOver s v := by
  rw [gain_terms]
  exact Finset.sum_nonneg (fun x hx => gain_term_nonneg (hv x hx) (Finset.single_le_sum hv hx))

/-- Gain 0 means at most one positive value. -/
theorem gain_zero_iff {s : Finset ι} {v : ι → ℝ} (hv : ∀ x ∈ s, 0 ≤ v x) :
    gainOver s v = 0 ↔ ∀ x ∈ s, ∀ y ∈ s, 0 < v x → 0 < v y → x = y := by
  classical
  rw [gain_terms, Finset.sum_eq_zero_iff_of_nonneg
    (fun x hx => gain_term_nonneg (hv x hx) (Finset.single_le_sum hv hx))]
  constructor
  · intro h x hx y hy px py
    by_contra hne
    have hlt : v x < ∑ z ∈ s, v z := by
      have : v x + v y ≤ ∑ z ∈ s, v z := by
        rw [← Finset.sum_pair hne]
        exact Finset.sum_le_sum_of_subset_of_nonneg (by
          intro z hz
          simp only [Finset.mem_insert, Finset.mem_singleton] at hz
          rcases hz with rfl | rfl <;> assumption) (fun z hz _ => hv z hz)
      linarith
    have h1 := h x hx
    have h2 := Real.logb_lt_logb (b := 2) (by norm_num) px hlt
    have h3 := mul_pos px (sub_pos.mpr h2)
    linarith
  · intro h x hx
    rcases eq_or_lt_of_le (hv x hx) with h0 | h0
    · rw [← h0, zero_mul]
    · have : ∑ z ∈ s, v z = v x := by
        apply Finset.sum_eq_single_of_mem x hx
        intro y hy hne
        rcases eq_or_lt_of_le (hv y hy) with g | g
        · exact g.symm
        · exact absurd (h y hy x hx g h0) hne
      rw [this, sub_self, mul_zero]

/-- Merging parts never lowers the gain. -/
theorem gain_merge [DecidableEq ι] {P : Finset κ} {part : κ → Finset ι} {v : ι → ℝ}
    (hd : (P : Set κ).PairwiseDisjoint part) (hv : ∀ i ∈ P, ∀ x ∈ part i, 0 ≤ v x) :
    ∑ i ∈ P, gainOver (part i) v ≤ gainOver (P.biUnion part) v := by
  have hS : ∀ i ∈ P, 0 ≤ ∑ x ∈ part i, v x := fun i hi => Finset.sum_nonneg (hv i hi)
  unfold gainOver
  rw [Finset.sum_sub_distrib, Finset.sum_biUnion hd, Finset.sum_biUnion hd]
  have := gain_nonneg (s := P) (v := fun i => ∑ x ∈ part i, v x) hS
  unfold gainOver at this
  linarith

/-- Merging parts never lowers the loss. -/
theorem loss_merge [DecidableEq ι] {P : Finset κ} {part : κ → Finset ι} {v : ι → ℝ}
    (hd : (P : Set κ).PairwiseDisjoint part) (hne : ∀ i ∈ P, (part i).Nonempty)
    (hv : ∀ i ∈ P, ∀ x ∈ part i, 0 ≤ v x) :
    ∑ i ∈ P, lossOver (part i) v ≤ lossOver (P.biUnion part) v := by
  rcases P.eq_empty_or_nonempty with rfl | hP
  · simp [lossOver, gainOver, xlog2]
  · have hU : (P.biUnion part).Nonempty := by
      obtain ⟨i, hi⟩ := hP
      obtain ⟨x, hx⟩ := hne i hi
      exact ⟨x, Finset.mem_biUnion.mpr ⟨i, hi, hx⟩⟩
    have hvU : ∀ x ∈ P.biUnion part, 0 ≤ v x := by
      intro x hx
      obtain ⟨i, hi, hx⟩ := Finset.mem_biUnion.mp hx
      exact hv i hi x hx
    rw [loss_gap hU hvU, Finset.sum_congr rfl (fun i hi => loss_gap (hne i hi) (hv i hi)), Finset.sum_sub_distrib,
      Finset.sum_biUnion hd, Finset.sum_biUnion hd, Finset.card_biUnion hd]
    have hpos : ∀ i ∈ P, (0 : ℝ) < (part i).card := fun i hi => by exact_mod_cast (hne i hi).card_pos
    have h := (xlog2_jensen (t := P) (n := fun i => ((part i).card : ℝ))
      (x := fun i => (∑ x ∈ part i, v x) / (part i).card) hpos
      (fun i hi => div_nonneg (Finset.sum_nonneg (hv i hi)) (hpos i hi).le) hP).1
    have e : ∑ i ∈ P, ((part i).card : ℝ) * ((∑ x ∈ part i, v x) / (part i).card) = ∑ i ∈ P, ∑ x ∈ part i, v x :=
      Finset.sum_congr rfl (fun i hi => mul_div_cancel₀ _ (hpos i hi).ne')
    rw [e] at h
    push_cast at h ⊢
    linarith

/-! ### Several series -/

variable {m : Nat} {V : Nat → ι → ℝ}

theorem gainSeries_nonneg {s : Finset ι} (hv : ∀ k < m, ∀ x ∈ s, 0 ≤ V k x) : 0 ≤ gainSeries m s V :=
  Finset.sum_nonneg (fun k hk => gain_nonneg (hv k (Finset.mem_range.mp hk)))

theorem lossSeries_nonneg {s : Finset ι} (hv : ∀ k < m, ∀ x ∈ s, 0 ≤ V k x) : 0 ≤ lossSeries m s V :=
  Finset.sum_nonneg (fun k hk => loss_nonneg (hv k (Finset.mem_range.mp hk)))

theorem lossSeries_zero_iff {s : Finset ι} (hv : ∀ k < m, ∀ x ∈ s, 0 ≤ V k x) :
    lossSeries m s V = 0 ↔ ∀ k < m, ∀ x ∈ s, ∀ y ∈ s, V k x = V k y := by
  unfold lossSeries
  rw [Finset.sum_eq_zero_iff_of_nonneg (fun k hk => loss_nonneg (hv k (Finset.mem_range.mp hk)))]
  constructor
  · intro h k hk; exact (loss_zero_iff (hv k hk)).mp (h k (Finset.mem_range.mpr hk))
  · intro h k hk; exact (loss_zero_iff (hv k (Finset.mem_range.mp hk))).mpr (h k (Finset.mem_range.mp hk))

theorem gainSeries_zero_iff {s : Finset ι} (hv : ∀ k < m, ∀ x ∈ s, 0 ≤ V k x) :
    gainSeries m s V = 0 ↔ ∀ k < m, ∀ x ∈ s, ∀ y ∈ s, 0 < V k x → 0 < V k y → x = y := by
  unfold gainSeries
  rw [Finset.sum_eq_zero_iff_of_nonneg (fun k hk => gain_nonneg (hv k (Finset.mem_range.mp hk)))]
  constructor
  · intro h k hk; exact (gain_zero_iff (hv k hk)).mp (h k (Finset.mem_range.mpr hk))
  · intro h k hk; exact (gain_zero_iff (hv k (Finset.mem_range.mp hk))).mpr (h k (Finset.mem_range.mp hk))

theorem gainSeries_merge [DecidableEq ι] {P : Finset κ} {part : κ → Finset ι}
    (hd : (P : Set κ).PairwiseDisjoint part) (hv : ∀ k < m, ∀ i ∈ P, ∀ x ∈ part i, 0 ≤ V k x) :
    ∑ i ∈ P, gainSeries m (part i) V ≤ gainSeries m (P.biUnion part) V := by
  unfold gainSeries
  rw [Finset.sum_comm]
  exact Finset.sum_le_sum (fun k hk => gain_merge hd (hv k (Finset.mem_range.mp hk)))

theorem lossSeries_merge [DecidableEq ι] {P : Finset κ} {part : κ → Finset ι}
    (hd : (P : Set κ).PairwiseDisjoint part) (hne : ∀ i ∈ P, (part i).Nonempty)
    (hv : ∀ k < m, ∀ i ∈ P, ∀ x ∈ part i, 0 ≤ V k x) :
    ∑ i ∈ P, lossSeries m (part i) V ≤ lossSeries m (P.biUnion part) V := by
  unfold lossSeries
  rw [Finset.sum_comm]
  exact Finset.sum_le_sum (fun k hk => loss_merge hd hne (hv k (Finset.mem_range.mp hk)))

theorem gainSeries_single (x : ι) : gainSeries m {x} V = 0 := by
  unfold gainSeries gainOver; simp

theorem lossSeries_single (x : ι) : lossSeries m {x} V = 0 := by
  unfold lossSeries lossOver gainOver; simp

end Lp
