import Verif.Spec.Description
import Verif.Proofs.Ent
import Verif.Proofs.Condition

/-!
# Gain and loss as bits of a description
-/

namespace Lp
open Spec
open scoped BigOperators
variable {A ι : Type}

theorem mul_log_div {s T : ℝ} (h0 : 0 ≤ s) (hT : s ≤ T) : s * Real.logb 2 (T / s) = s * Real.logb 2 T - xlog2 s := by
  rcases h0.eq_or_lt with rfl | hs
  · simp [xlog2]
  · unfold xlog2
    rw [Real.logb_div (by linarith) hs.ne']
    ring

/-- `∑ s log (T/s)` for numbers with sum `T`. -/
theorem gainOver_bits {s : Finset ι} {v : ι → ℝ} (hv : ∀ x ∈ s, 0 ≤ v x) :
    gainOver s v = ∑ x ∈ s, v x * Real.logb 2 ((∑ y ∈ s, v y) / v x) := by
  have h : ∀ x ∈ s, v x * Real.logb 2 ((∑ y ∈ s, v y) / v x) = v x * Real.logb 2 (∑ y ∈ s, v y) - xlog2 (v x) := fun x hx =>
    mul_log_div (hv x hx) (Finset.single_le_sum hv hx)
  rw [Finset.sum_congr rfl h, Finset.sum_sub_distrib, ← Finset.sum_mul]
  rfl

theorem lossOver_bits {s : Finset ι} {v w : ι → ℝ} (hv : ∀ x ∈ s, 0 ≤ v x) (hw : ∀ x ∈ s, w x = (∑ y ∈ s, v y) / s.card) :
    lossOver s v = ∑ x ∈ s, v x * Real.logb 2 (v x / w x) := by
  have h : ∀ x ∈ s, v x * Real.logb 2 (v x / w x) = xlog2 (v x) - v x * Real.logb 2 (∑ y ∈ s, v y) + v x * Real.logb 2 s.card := by
    intro x hx
    rw [hw x hx]
    have hc : (0 : ℝ) < s.card := by exact_mod_cast Finset.card_pos.mpr ⟨x, hx⟩
    rcases (hv x hx).eq_or_lt with h | h
    · rw [← h]; simp [xlog2]
    · have hS : 0 < ∑ y ∈ s, v y := lt_of_lt_of_le h (Finset.single_le_sum hv hx)
      rw [Real.logb_div h.ne' (div_pos hS hc).ne', Real.logb_div hS.ne' hc.ne']
      unfold xlog2
      ring
  rw [Finset.sum_congr rfl h, Finset.sum_add_distrib, Finset.sum_sub_distrib, ← Finset.sum_mul, ← Finset.sum_mul]
  unfold lossOver gainOver xlog2
  ring

section
variable {cells : A → Finset ι} {L : List A} {U : Finset ι}

theorem list_sum_sub (f g : A → ℝ) (L : List A) : (L.map (fun a => f a - g a)).sum = (L.map f).sum - (L.map g).sum := by
  induction L with
  | nil => simp
  | cons a L ih => simp only [List.map_cons, List.sum_cons, ih]; ring

theorem list_sum_mulc (f : A → ℝ) (c : ℝ) (L : List A) : (L.map (fun a => f a * c)).sum = (L.map f).sum * c := by
  induction L with
  | nil => simp
  | cons a L ih => simp only [List.map_cons, List.sum_cons, ih]; ring

theorem list_sum_finset {κ : Type} (f : κ → A → ℝ) (t : Finset κ) (L : List A) :
    (L.map (fun a => ∑ k ∈ t, f k a)).sum = ∑ k ∈ t, (L.map (f k)).sum := by
  induction L with
  | nil => simp
  | cons a L ih => simp only [List.map_cons, List.sum_cons, ih, Finset.sum_add_distrib]

theorem list_sum_congr {f g : A → ℝ} {L : List A} (h : ∀ a ∈ L, f a = g a) : (L.map f).sum = (L.map g).sum := by
  rw [List.map_congr_left h]

theorem Cuts.gain_bits {v : ι → ℝ} (h : Cuts cells L U) (hv : ∀ x ∈ U, 0 ≤ v x) :
    (L.map (fun a => gainOver (cells a) v)).sum = gainOver U v -
      (L.map (fun a => (∑ x ∈ cells a, v x) * Real.logb 2 ((∑ y ∈ U, v y) / ∑ x ∈ cells a, v x))).sum := by
  have e : ∀ a ∈ L, (∑ x ∈ cells a, v x) * Real.logb 2 ((∑ y ∈ U, v y) / ∑ x ∈ cells a, v x) =
      (∑ x ∈ cells a, v x) * Real.logb 2 (∑ y ∈ U, v y) - xlog2 (∑ x ∈ cells a, v x) := fun a ha =>
    mul_log_div (Finset.sum_nonneg (fun x hx => hv x (h.sub a ha hx)))
      (Finset.sum_le_sum_of_subset_of_nonneg (h.sub a ha) (fun x hx _ => hv x hx))
  rw [list_sum_congr e, list_sum_sub, list_sum_mulc, h.sum v]
  unfold gainOver
  rw [list_sum_sub, h.sum (fun x => xlog2 (v x))]
  unfold xlog2
  ring

theorem Cuts.loss_bits {v w : ι → ℝ} (h : Cuts cells L U) (hv : ∀ x ∈ U, 0 ≤ v x)
    (hw : ∀ a ∈ L, ∀ x ∈ cells a, w x = (∑ y ∈ cells a, v y) / (cells a).card) :
    (L.map (fun a => lossOver (cells a) v)).sum = ∑ x ∈ U, v x * Real.logb 2 (v x / w x) := by
  rw [← h.sum (fun x => v x * Real.logb 2 (v x / w x))]
  exact list_sum_congr (fun a ha => lossOver_bits (fun x hx => hv x (h.sub a ha hx)) (hw a ha))

variable {m : Nat} {V : Nat → ι → ℝ}

theorem Cuts.gainOf_bits (h : Cuts cells L U) (hv : ∀ k < m, ∀ x ∈ U, 0 ≤ V k x) :
    gainOf (fun a => entQ m V (cells a)) L = microBits m V U - macroBits m V U cells L := by
  unfold gainOf entQ microBits macroBits gainSeries
  rw [list_sum_finset, ← Finset.sum_sub_distrib]
  refine Finset.sum_congr rfl (fun k hk => ?_)
  have hv' := hv k (Finset.mem_range.mp hk)
  rw [h.gain_bits hv', gainOver_bits hv']

theorem Cuts.lossOf_bits {W : Nat → ι → ℝ} (h : Cuts cells L U) (hv : ∀ k < m, ∀ x ∈ U, 0 ≤ V k x) (hW : Averages m V W cells L) :
    lossOf (fun a => entQ m V (cells a)) L = divergenceBits m V W U := by
  unfold lossOf entQ divergenceBits lossSeries
  rw [list_sum_finset]
  refine Finset.sum_congr rfl (fun k hk => ?_)
  have hk := Finset.mem_range.mp hk
  exact h.loss_bits (hv k hk) (hW k hk)

/-- There are such averages. -/
theorem Cuts.averages (h : Cuts cells L U) (m : Nat) (V : Nat → ι → ℝ) : ∃ W, Averages m V W cells L := by
  classical
  refine ⟨fun k x => if hx : ∃ a ∈ L, x ∈ cells a then (∑ y ∈ cells hx.choose, V k y) / (cells hx.choose).card else 0, ?_⟩
  intro k _ a ha x hx
  have hex : ∃ a ∈ L, x ∈ cells a := ⟨a, ha, hx⟩
  show (if hx : ∃ a ∈ L, x ∈ cells a then (∑ y ∈ cells hx.choose, V k y) / (cells hx.choose).card else 0) = _
  rw [dif_pos hex]
  obtain ⟨c1, c2⟩ := hex.choose_spec
  obtain ⟨i, hi, hu⟩ := exactlyOne_fin (h.one x (h.sub a ha hx))
  obtain ⟨j, hj, ej⟩ := List.mem_iff_getElem.mp c1
  obtain ⟨l, hl, el⟩ := List.mem_iff_getElem.mp ha
  have e1 := hu ⟨j, hj⟩ (by show x ∈ cells L[j]; rw [ej]; exact c2)
  have e2 := hu ⟨l, hl⟩ (by show x ∈ cells L[l]; rw [el]; exact hx)
  have e3 : j = l := by have := e1.trans e2.symm; simpa using this
  have : hex.choose = a := by rw [← ej, ← el]; simp only [e3]
  rw [this]

end
end Lp
