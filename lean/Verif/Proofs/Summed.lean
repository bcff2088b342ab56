import Verif.Spec.Summed
import Verif.Spec.Subsystems
import Verif.Proofs.Convex
import Verif.Proofs.Merge

/-!
# Adding series up: the gain never falls, the loss never grows
-/

namespace Lp
open Spec
open scoped BigOperators
variable {ι κ : Type}

/-- The contribution of one position to the gain, with the opposite sign. -/
noncomputable def cellTerm (a S : ℝ) : ℝ := xlog2 a - a * Real.logb 2 S

theorem cellTerm_eq {a S : ℝ} (ha : 0 ≤ a) (hS : 0 < S) : cellTerm a S = S * xlog2 (a / S) := by
  unfold cellTerm
  rcases eq_or_lt_of_le ha with h | h
  · rw [← h]; simp [xlog2]
  · unfold xlog2
    rw [Real.logb_div h.ne' hS.ne']
    field_simp

theorem cellTerm_zero (S : ℝ) : cellTerm 0 S = 0 := by simp [cellTerm, xlog2]

/-- The log-sum inequality, with the case of equality. -/
theorem logSum {G : Finset κ} {a S : κ → ℝ} (ha : ∀ k ∈ G, 0 ≤ a k) (hS : ∀ k ∈ G, a k ≤ S k) :
    cellTerm (∑ k ∈ G, a k) (∑ k ∈ G, S k) ≤ ∑ k ∈ G, cellTerm (a k) (S k) ∧
    (cellTerm (∑ k ∈ G, a k) (∑ k ∈ G, S k) = ∑ k ∈ G, cellTerm (a k) (S k) ↔
      ∀ j ∈ G, ∀ k ∈ G, a j * S k = a k * S j) := by
  classical
  have hS0 : ∀ k ∈ G, 0 ≤ S k := fun k hk => le_trans (ha k hk) (hS k hk)
  set t := G.filter (fun k => 0 < S k) with ht
  have hz : ∀ k ∈ G, k ∉ t → S k = 0 ∧ a k = 0 := by
    intro k hk hn
    have : ¬ 0 < S k := fun h => hn (Finset.mem_filter.mpr ⟨hk, h⟩)
    have h0 : S k = 0 := le_antisymm (not_lt.mp this) (hS0 k hk)
    exact ⟨h0, le_antisymm (h0 ▸ hS k hk) (ha k hk)⟩
  have hsub : t ⊆ G := Finset.filter_subset _ _
  have eA : ∑ k ∈ G, a k = ∑ k ∈ t, a k := (Finset.sum_subset hsub fun k hk hn => (hz k hk hn).2).symm
  have eS : ∑ k ∈ G, S k = ∑ k ∈ t, S k := (Finset.sum_subset hsub fun k hk hn => (hz k hk hn).1).symm
  have eT : ∑ k ∈ G, cellTerm (a k) (S k) = ∑ k ∈ t, S k * xlog2 (a k / S k) := by
    rw [← Finset.sum_subset hsub fun k hk hn => by rw [(hz k hk hn).2, cellTerm_zero]]
    exact Finset.sum_congr rfl fun k hk => cellTerm_eq (ha k (hsub hk)) (Finset.mem_filter.mp hk).2
  have hpos : ∀ k ∈ t, 0 < S k := fun k hk => (Finset.mem_filter.mp hk).2
  rw [eA, eS, eT]
  have hside : (∀ j ∈ t, ∀ k ∈ t, a j / S j = a k / S k) ↔ ∀ j ∈ G, ∀ k ∈ G, a j * S k = a k * S j := by
    constructor
    · intro h j hj k hk
      by_cases h1 : j ∈ t
      · by_cases h2 : k ∈ t
        · have := h j h1 k h2
          rwa [div_eq_div_iff (hpos j h1).ne' (hpos k h2).ne'] at this
        · rw [(hz k hk h2).1, (hz k hk h2).2]; ring
      · rw [(hz j hj h1).1, (hz j hj h1).2]; ring
    · intro h j hj k hk
      rw [div_eq_div_iff (hpos j hj).ne' (hpos k hk).ne']
      exact h j (hsub hj) k (hsub hk)
  rcases t.eq_empty_or_nonempty with h | h
  · rw [← hside, h]
    simp [cellTerm_zero]
  · have hSt : 0 < ∑ k ∈ t, S k := Finset.sum_pos hpos h
    rw [cellTerm_eq (Finset.sum_nonneg fun k hk => ha k (hsub hk)) hSt, ← hside]
    have key := xlog2_jensen (t := t) (n := S) (x := fun k => a k / S k) hpos
      (fun k hk => div_nonneg (ha k (hsub hk)) (hpos k hk).le) h
    have e : ∑ k ∈ t, S k * (a k / S k) = ∑ k ∈ t, a k :=
      Finset.sum_congr rfl fun k hk => mul_div_cancel₀ _ (hpos k hk).ne'
    rw [e] at key
    exact key

theorem gain_cells (s : Finset ι) (v : ι → ℝ) : gainOver s v = -∑ x ∈ s, cellTerm (v x) (∑ y ∈ s, v y) := by
  rw [gain_terms, ← Finset.sum_neg_distrib]
  exact Finset.sum_congr rfl fun x _ => by unfold cellTerm xlog2; ring

theorem proportional_sum {s : Finset ι} {v w : ι → ℝ} (hv : ∀ x ∈ s, 0 ≤ v x) (hw : ∀ x ∈ s, 0 ≤ w x) :
    Proportional s v w ↔ ∀ x ∈ s, v x * (∑ y ∈ s, w y) = w x * ∑ y ∈ s, v y := by
  constructor
  · intro h x hx
    rw [Finset.mul_sum, Finset.mul_sum]
    exact Finset.sum_congr rfl fun y hy => by rw [h x hx y hy]; ring
  · intro h x hx y hy
    rcases eq_or_lt_of_le (Finset.sum_nonneg hv) with h0 | h0
    · have z := (Finset.sum_eq_zero_iff_of_nonneg hv).mp h0.symm
      rw [z x hx, z y hy]; ring
    · have h1 := h x hx
      have h2 := h y hy
      have e1 : w x = v x * (∑ y ∈ s, w y) / ∑ y ∈ s, v y := by rw [h1]; field_simp
      have e2 : w y = v y * (∑ y ∈ s, w y) / ∑ y ∈ s, v y := by rw [h2]; field_simp
      rw [e1, e2]; ring

/-- Gains of the series of one group and of their sum. -/
theorem gain_group {s : Finset ι} {G : Finset κ} {v : κ → ι → ℝ} (hv : ∀ k ∈ G, ∀ x ∈ s, 0 ≤ v k x) :
    ∑ k ∈ G, gainOver s (v k) ≤ gainOver s (fun x => ∑ k ∈ G, v k x) ∧
    (∑ k ∈ G, gainOver s (v k) = gainOver s (fun x => ∑ k ∈ G, v k x) ↔ ∀ j ∈ G, ∀ k ∈ G, Proportional s (v j) (v k)) := by
  have e1 : ∑ k ∈ G, gainOver s (v k) = -∑ x ∈ s, ∑ k ∈ G, cellTerm (v k x) (∑ y ∈ s, v k y) := by
    rw [Finset.sum_comm, ← Finset.sum_neg_distrib]
    exact Finset.sum_congr rfl fun k _ => gain_cells s (v k)
  have e2 : gainOver s (fun x => ∑ k ∈ G, v k x) = -∑ x ∈ s, cellTerm (∑ k ∈ G, v k x) (∑ k ∈ G, ∑ y ∈ s, v k y) := by
    rw [gain_cells, Finset.sum_comm]
  have hl : ∀ x ∈ s, _ := fun x hx => logSum (G := G) (a := fun k => v k x) (S := fun k => ∑ y ∈ s, v k y)
    (fun k hk => hv k hk x hx) (fun k hk => Finset.single_le_sum (hv k hk) hx)
  rw [e1, e2, neg_le_neg_iff, neg_inj]
  refine ⟨Finset.sum_le_sum fun x hx => (hl x hx).1, ?_⟩
  rw [eq_comm, Finset.sum_eq_sum_iff_of_le fun x hx => (hl x hx).1]
  constructor
  · intro h j hj k hk
    rw [proportional_sum (hv j hj) (hv k hk)]
    intro x hx
    exact (hl x hx).2.mp (h x hx) j hj k hk
  · intro h x hx
    refine (hl x hx).2.mpr fun j hj k hk => ?_
    exact (proportional_sum (hv j hj) (hv k hk)).mp (h j hj k hk) x hx

theorem both_total (s : Finset ι) (v : ι → ℝ) : lossOver s v = (∑ x ∈ s, v x) * Real.logb 2 s.card - gainOver s v := rfl

variable {m m' : Nat} {V W : Nat → ι → ℝ} {dom : ι → Prop} {group : Nat → Nat}

/-- Qualities of a part before and after adding the series up. -/
theorem summed_entQ (h : Summed dom m V m' W group) {s : Finset ι} (hs : ∀ x ∈ s, dom x) (hv : ∀ k < m, ∀ x ∈ s, 0 ≤ V k x) :
    (entQ m V s).gain ≤ (entQ m' W s).gain ∧
    (entQ m' W s).gain + (entQ m' W s).loss = (entQ m V s).gain + (entQ m V s).loss ∧
    ((entQ m V s).gain = (entQ m' W s).gain ↔ AllProportional s m V group) := by
  classical
  set G : Nat → Finset Nat := fun j => (Finset.range m).filter (fun k => group k = j) with hG
  have hmem : ∀ j k, k ∈ G j → k < m ∧ group k = j := fun j k hk => by
    rw [hG] at hk
    exact ⟨Finset.mem_range.mp (Finset.mem_filter.mp hk).1, (Finset.mem_filter.mp hk).2⟩
  have hmaps : ∀ k ∈ Finset.range m, group k ∈ Finset.range m' := fun k hk =>
    Finset.mem_range.mpr (h.goes k (Finset.mem_range.mp hk))
  have fib : ∀ w : Nat → ℝ, ∑ k ∈ Finset.range m, w k = ∑ j ∈ Finset.range m', ∑ k ∈ G j, w k := fun w =>
    (Finset.sum_fiberwise_of_maps_to hmaps w).symm
  have hW : ∀ j < m', ∀ x ∈ s, W j x = ∑ k ∈ G j, V k x := fun j hj x hx => h.total j x hj (hs x hx)
  have hg : ∀ j < m', gainOver s (W j) = gainOver s (fun x => ∑ k ∈ G j, V k x) := by
    intro j hj
    unfold gainOver
    rw [Finset.sum_congr rfl (hW j hj), Finset.sum_congr rfl fun x hx => congrArg xlog2 (hW j hj x hx)]
  have hgrp : ∀ j < m', _ := fun j (hj : j < m') => gain_group (s := s) (G := G j) (v := V) fun k hk => hv k (hmem j k hk).1
  have eV : (entQ m V s).gain = ∑ j ∈ Finset.range m', ∑ k ∈ G j, gainOver s (V k) := fib _
  have eW : (entQ m' W s).gain = ∑ j ∈ Finset.range m', gainOver s (fun x => ∑ k ∈ G j, V k x) :=
    Finset.sum_congr rfl fun j hj => hg j (Finset.mem_range.mp hj)
  have hle : ∀ j ∈ Finset.range m', ∑ k ∈ G j, gainOver s (V k) ≤ gainOver s (fun x => ∑ k ∈ G j, V k x) := fun j hj =>
    (hgrp j (Finset.mem_range.mp hj)).1
  refine ⟨?_, ?_, ?_⟩
  · rw [eV, eW]
    exact Finset.sum_le_sum hle
  · have tot : ∀ (m : Nat) (V : Nat → ι → ℝ), (entQ m V s).gain + (entQ m V s).loss =
        (∑ k ∈ Finset.range m, ∑ x ∈ s, V k x) * Real.logb 2 s.card := by
      intro m V
      show gainSeries m s V + lossSeries m s V = _
      unfold gainSeries lossSeries
      rw [← Finset.sum_add_distrib, Finset.sum_mul]
      exact Finset.sum_congr rfl fun k _ => by rw [both_total]; ring
    rw [tot, tot]
    congr 1
    rw [fib]
    refine Finset.sum_congr rfl fun j hj => ?_
    rw [Finset.sum_congr rfl (hW j (Finset.mem_range.mp hj)), Finset.sum_comm]
  · rw [eV, eW, Finset.sum_eq_sum_iff_of_le hle]
    constructor
    · intro hh j k hj hk hjk
      have hr : group j ∈ Finset.range m' := hmaps j (Finset.mem_range.mpr hj)
      exact (hgrp _ (Finset.mem_range.mp hr)).2.mp (hh _ hr) j (Finset.mem_filter.mpr ⟨Finset.mem_range.mpr hj, rfl⟩) k
        (Finset.mem_filter.mpr ⟨Finset.mem_range.mpr hk, hjk.symm⟩)
    · intro hh j hj
      refine (hgrp j (Finset.mem_range.mp hj)).2.mpr fun a ha b hb => ?_
      exact hh a b (hmem j a ha).1 (hmem j b hb).1 ((hmem j a ha).2.trans (hmem j b hb).2.symm)

/-- Moving the same amount from the loss to the gain in every part raises the value of every list of parts. -/
theorem value_shift {A : Type} {a b : ℝ} (hab : 0 ≤ a + b) {q q' : A → Quality ℝ} {L : List A}
    (h : ∀ r ∈ L, (q r).gain ≤ (q' r).gain ∧ (q' r).gain + (q' r).loss = (q r).gain + (q r).loss) :
    valueOf a b q L ≤ valueOf a b q' L := by
  unfold valueOf gainOf lossOf
  induction L with
  | nil => simp
  | cons r L ih =>
    have h1 := ih fun x hx => h x (List.mem_cons_of_mem _ hx)
    obtain ⟨h2, h3⟩ := h r (List.mem_cons_self ..)
    simp only [List.map_cons, List.sum_cons]
    have h4 := mul_nonneg hab (sub_nonneg.mpr h2)
    have h5 : (q' r).loss = (q r).gain + (q r).loss - (q' r).gain := by linarith
    rw [h5]
    nlinarith only [h1, h4]

end Lp
