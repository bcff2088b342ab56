import Verif.Proofs.Ent
import Verif.Proofs.Condition
import Mathlib.Topology.UniformSpace.HeineCantor
import Mathlib.Topology.MetricSpace.Bounded

/-!
# Gain and loss depend continuously on the data
-/

namespace Lp
open Spec
open scoped BigOperators
variable {A ι : Type}

/-- `x log₂ x` is uniformly continuous on bounded intervals. -/
theorem xlog2_modulus (B : ℝ) {ε : ℝ} (hε : 0 < ε) :
    ∃ d > 0, ∀ x y, 0 ≤ x → x ≤ B → 0 ≤ y → y ≤ B → |x - y| ≤ d → |xlog2 x - xlog2 y| ≤ ε := by
  have hc : Continuous xlog2 := by
    have : xlog2 = fun x => x * Real.log x / Real.log 2 := funext xlog2_eq
    rw [this]
    exact Real.continuous_mul_log.div_const _
  have hu := isCompact_Icc.uniformContinuousOn_of_continuous (s := Set.Icc 0 B) hc.continuousOn
  rw [Metric.uniformContinuousOn_iff] at hu
  obtain ⟨d, hd, h⟩ := hu ε hε
  refine ⟨d / 2, by linarith, fun x y x0 x1 y0 y1 hxy => ?_⟩
  have := h x ⟨x0, x1⟩ y ⟨y0, y1⟩ (by rw [Real.dist_eq]; linarith)
  rw [Real.dist_eq] at this
  exact this.le

theorem sumApart {s : Finset ι} {f g : ι → ℝ} {d : ℝ} (h : ∀ x ∈ s, |f x - g x| ≤ d) : |∑ x ∈ s, f x - ∑ x ∈ s, g x| ≤ s.card * d := by
  rw [← Finset.sum_sub_distrib]
  refine le_trans (Finset.abs_sum_le_sum_abs _ _) ?_
  refine le_trans (Finset.sum_le_sum h) ?_
  rw [Finset.sum_const, nsmul_eq_mul]

/-- One series. -/
theorem over_modulus (N : Nat) (B : ℝ) {ε : ℝ} (hε : 0 < ε) :
    ∃ d > 0, ∀ (s : Finset ι) (v v' : ι → ℝ), s.card ≤ N → (∀ x ∈ s, 0 ≤ v x ∧ v x ≤ B ∧ 0 ≤ v' x ∧ v' x ≤ B ∧ |v x - v' x| ≤ d) →
      |gainOver s v - gainOver s v'| ≤ ε ∧ |lossOver s v - lossOver s v'| ≤ ε := by
  set N' : ℝ := (N : ℝ) + 1 with hN'
  have hN0 : (0 : ℝ) ≤ N := Nat.cast_nonneg N
  have hN1 : 1 ≤ N' := by linarith
  obtain ⟨d0, hd0, h0⟩ := xlog2_modulus (N' * (|B| + 1)) (ε := ε / (4 * N')) (by positivity)
  have lg : 0 ≤ Real.logb 2 N' := Real.logb_nonneg (by norm_num) hN1
  refine ⟨min (d0 / N') (ε / (2 * (N' * (Real.logb 2 N' + 1)))), lt_min (by positivity) (by positivity), ?_⟩
  intro s v v' hs h
  set d := min (d0 / N') (ε / (2 * (N' * (Real.logb 2 N' + 1)))) with hd
  have d1 : d * N' ≤ d0 := by rw [← le_div_iff₀ (by linarith)]; exact min_le_left _ _
  have d2 : d * (2 * (N' * (Real.logb 2 N' + 1))) ≤ ε := by rw [← le_div_iff₀ (by positivity)]; exact min_le_right _ _
  have dp : 0 < d := lt_min (by positivity) (by positivity)
  have hc : (s.card : ℝ) ≤ N := by exact_mod_cast hs
  have hc0 : (0 : ℝ) ≤ s.card := Nat.cast_nonneg _
  have hB : 0 ≤ |B| + 1 := by positivity
  have hBB : B ≤ |B| := le_abs_self B
  have sumB : ∀ f : ι → ℝ, (∀ x ∈ s, 0 ≤ f x ∧ f x ≤ B) → 0 ≤ ∑ x ∈ s, f x ∧ ∑ x ∈ s, f x ≤ N' * (|B| + 1) := by
    intro f hf
    refine ⟨Finset.sum_nonneg (fun x hx => (hf x hx).1), ?_⟩
    refine le_trans (Finset.sum_le_sum (g := fun _ => |B| + 1) (fun x hx => ?_)) ?_
    · have := (hf x hx).2; linarith
    · rw [Finset.sum_const, nsmul_eq_mul]
      exact mul_le_mul_of_nonneg_right (by linarith) hB
  have hS := sumApart (fun x hx => (h x hx).2.2.2.2)
  have hS' : |∑ x ∈ s, v x - ∑ x ∈ s, v' x| ≤ N' * d := le_trans hS (mul_le_mul_of_nonneg_right (by linarith) dp.le)
  obtain ⟨a0, a1⟩ := sumB v (fun x hx => ⟨(h x hx).1, (h x hx).2.1⟩)
  obtain ⟨b0, b1⟩ := sumB v' (fun x hx => ⟨(h x hx).2.2.1, (h x hx).2.2.2.1⟩)
  have g1 := h0 _ _ a0 a1 b0 b1 (le_trans hS' (by linarith))
  have g2 := sumApart (s := s) (f := fun x => xlog2 (v x)) (g := fun x => xlog2 (v' x)) (d := ε / (4 * N')) (fun x hx => by
    obtain ⟨p1, p2, p3, p4, p5⟩ := h x hx
    refine h0 _ _ p1 ?_ p3 ?_ (le_trans p5 ?_)
    · nlinarith
    · nlinarith
    · nlinarith)
  have e1 : (s.card : ℝ) * (ε / (4 * N')) ≤ ε / 4 := by
    have : (s.card : ℝ) * (ε / (4 * N')) ≤ N' * (ε / (4 * N')) := mul_le_mul_of_nonneg_right (by linarith) (by positivity)
    have e : N' * (ε / (4 * N')) = ε / 4 := by field_simp
    linarith
  have e2 : ε / (4 * N') ≤ ε / 4 := div_le_div_of_nonneg_left hε.le (by norm_num) (by linarith)
  have hg : |gainOver s v - gainOver s v'| ≤ ε / 2 := by
    unfold gainOver
    rw [abs_le] at g1 g2 ⊢
    constructor <;> linarith
  have hl : |(∑ x ∈ s, v x) * Real.logb 2 s.card - (∑ x ∈ s, v' x) * Real.logb 2 s.card| ≤ ε / 2 := by
    rcases Nat.eq_zero_or_pos s.card with h0 | h0
    · rw [h0]; simp; linarith
    · have hc1 : (1 : ℝ) ≤ s.card := by exact_mod_cast h0
      have l0 : 0 ≤ Real.logb 2 s.card := Real.logb_nonneg (by norm_num) hc1
      have l1 : Real.logb 2 s.card ≤ Real.logb 2 N' := Real.logb_le_logb_of_le (by norm_num) (by linarith) (by linarith)
      rw [← sub_mul, abs_mul, abs_of_nonneg l0]
      have : |∑ x ∈ s, v x - ∑ x ∈ s, v' x| * Real.logb 2 s.card ≤ N' * d * Real.logb 2 N' :=
        mul_le_mul hS' l1 l0 (by positivity)
      nlinarith [mul_pos (show 0 < N' by linarith) dp]
  refine ⟨by linarith, ?_⟩
  unfold lossOver
  rw [abs_le] at hg hl ⊢
  constructor <;> linarith

/-- All series. -/
theorem series_modulus (N m : Nat) (B : ℝ) {ε : ℝ} (hε : 0 < ε) :
    ∃ d > 0, ∀ (s : Finset ι) (V V' : Nat → ι → ℝ), s.card ≤ N →
      (∀ k < m, ∀ x ∈ s, 0 ≤ V k x ∧ V k x ≤ B ∧ 0 ≤ V' k x ∧ V' k x ≤ B ∧ |V k x - V' k x| ≤ d) →
      |gainSeries m s V - gainSeries m s V'| ≤ ε ∧ |lossSeries m s V - lossSeries m s V'| ≤ ε := by
  have hm0 : (0 : ℝ) ≤ m := Nat.cast_nonneg m
  obtain ⟨d, hd, h⟩ := over_modulus (ι := ι) N B (ε := ε / (m + 1)) (by positivity)
  have e1 : (m : ℝ) * (ε / (m + 1)) ≤ ε := by
    rw [mul_div_assoc', div_le_iff₀ (by positivity)]
    nlinarith
  refine ⟨d, hd, fun s V V' hs hx => ⟨?_, ?_⟩⟩
  · have := sumApart (s := Finset.range m) (f := fun k => gainOver s (V k)) (g := fun k => gainOver s (V' k)) (d := ε / (m + 1))
      (fun k hk => (h s (V k) (V' k) hs (hx k (Finset.mem_range.mp hk))).1)
    rw [Finset.card_range] at this
    exact le_trans this e1
  · have := sumApart (s := Finset.range m) (f := fun k => lossOver s (V k)) (g := fun k => lossOver s (V' k)) (d := ε / (m + 1))
      (fun k hk => (h s (V k) (V' k) hs (hx k (Finset.mem_range.mp hk))).2)
    rw [Finset.card_range] at this
    exact le_trans this e1

/-- The value of a partition. -/
theorem valueApart {a b ε : ℝ} (ha : |a| ≤ 1) (hb : |b| ≤ 1) {q q' : A → Quality ℝ} (hε : 0 ≤ ε) :
    ∀ L : List A, (∀ x ∈ L, |(q x).gain - (q' x).gain| ≤ ε ∧ |(q x).loss - (q' x).loss| ≤ ε) →
      |valueOf a b q L - valueOf a b q' L| ≤ L.length * (2 * ε) := by
  intro L
  induction L with
  | nil => intro _; simp [valueOf]
  | cons x L ih =>
    intro h
    have h1 := ih (fun y hy => h y (by simp [hy]))
    obtain ⟨g, l⟩ := h x (by simp)
    have e : valueOf a b q (x :: L) - valueOf a b q' (x :: L) =
        (valueOf a b q L - valueOf a b q' L) + (a * ((q x).gain - (q' x).gain) - b * ((q x).loss - (q' x).loss)) := by
      unfold valueOf gainOf lossOf
      simp only [List.map_cons, List.sum_cons]
      ring
    have g' : |a * ((q x).gain - (q' x).gain)| ≤ ε := by
      rw [abs_mul]
      nlinarith [abs_nonneg a, abs_nonneg ((q x).gain - (q' x).gain)]
    have l' : |b * ((q x).loss - (q' x).loss)| ≤ ε := by
      rw [abs_mul]
      nlinarith [abs_nonneg b, abs_nonneg ((q x).loss - (q' x).loss)]
    rw [e]
    simp only [List.length_cons]
    push_cast
    rw [abs_le] at h1 g' l' ⊢
    constructor <;> linarith

end Lp
