import Verif.Proofs.OEntropy
import Verif.Proofs.Data
import Verif.Proofs.Samples

/-!
# C05 — ordered qualities are the entropy measures

`OData v m n V` (`Spec/Data.lean`): the container has `m` series of `n` values `V k 0 .. V k (n-1)`;
`gainSeries m s V`, `lossSeries m s V` (`Spec/Entropy.lean`): the measures of the set of positions `s`.
-/

namespace Lp.C05
open Spec

/-- After `computeQualities` on non-negative ordered data the table has one entry per interval, containing the
entropy measures of the interval; nothing is accessed out of range. -/
theorem ordered (v : OValues ℝ) (m n : Nat) (V : Nat → Nat → ℝ) (hv : OData v m n V) (hn : n ≤ 65535)
    (h0 : ∀ k i, k < m → i < n → 0 ≤ V k i) :
    ∃ q, (OQualities.ofValues v).computeQualities = .ok ⟨some v, some q⟩ ∧ q.size = n ∧
      ∀ i j, i ≤ j → j < n →
        q.get i j = .ok ⟨gainSeries m (Finset.Icc i j) V, lossSeries m (Finset.Icc i j) V⟩ := by
  obtain ⟨q, e, h⟩ := oqCompute_entropy hv hn h0
  refine ⟨q, ?_, h.size, fun i j hij hj => h.get hij hj⟩
  unfold OQualities.computeQualities OQualities.ofValues
  simp only [e, okBind, pureOk]

/-- The same for data of any sign: values that are not positive do not enter the logarithms, and an interval whose sum
is not positive has gain 0. -/
theorem orderedAnySign (v : OValues ℝ) (m n : Nat) (V : Nat → Nat → ℝ) (hv : OData v m n V) (hn : n ≤ 65535) :
    ∃ q, (OQualities.ofValues v).computeQualities = .ok ⟨some v, some q⟩ ∧ q.size = n ∧
      ∀ i j, i ≤ j → j < n →
        q.get i j = .ok ⟨∑ k ∈ Finset.range m, gainAny (Finset.Icc i j) (V k),
          ∑ k ∈ Finset.range m, lossAny (Finset.Icc i j) (V k)⟩ := by
  obtain ⟨q, e, h⟩ := oqCompute_spec hv hn
  refine ⟨q, ?_, h.size, fun i j hij hj => ?_⟩
  · unfold OQualities.computeQualities OQualities.ofValues
    simp only [e, okBind, pureOk]
  · rw [h.get hij hj]
    unfold oCell
    rw [qSeries_any (card_Icc i j hij)]

/-- A single value has gain 0 and loss 0. -/
theorem singletons (m i : Nat) (V : Nat → Nat → ℝ) :
    gainSeries m (Finset.Icc i i) V = 0 ∧ lossSeries m (Finset.Icc i i) V = 0 := by
  constructor
  · unfold gainSeries gainOver
    simp
  · unfold lossSeries lossOver gainOver
    simp

/-- The four containers hold the data they were given, so `ordered` applies to them. -/
theorem containers :
    (∀ (c : OValuesN1 ℝ) O f, c.Holds O f → OData c.toOValues 1 O (fun _ => f)) ∧
    (∀ (c : OValuesN2 ℝ) V O f, c.Holds V O f → OData c.toOValues V O (fun k o => f (k, o))) ∧
    (∀ (c : OValuesN3 ℝ) I J O f, c.Holds I J O f → OData c.toOValues (I * J) O (fun k o => f (k / J, k % J, o))) ∧
    (∀ (c : OValuesN4 ℝ) I J Z O f, c.Holds I J Z O f →
      OData c.toOValues (I * J * Z) O (fun k o => f (k / Z / J, k / Z % J, k % Z, o))) :=
  ⟨fun _ _ _ h => h.data, fun _ _ _ _ h => h.data, fun _ _ _ _ _ h => h.data, fun _ _ _ _ _ _ h => h.data⟩

/-- Three slices with values 1, 1, 2 in one series: the whole has gain `4*2 - 2 = 6` and loss `4 log₂ 3 - 6`. -/
example : ∃ q, (OQualities.ofValues (OValuesN1.ofVec [1, 1, 2]).toOValues).computeQualities =
    .ok ⟨some (OValuesN1.ofVec [1, 1, 2]).toOValues, some q⟩ ∧ q.get 0 2 = .ok ⟨6, 4 * Real.logb 2 3 - 6⟩ := by
  have hd : OData (OValuesN1.ofVec [1, 1, 2]).toOValues 1 3 (fun _ i => if i = 2 then (2 : ℝ) else 1) :=
    (OValuesN1.ofVec_holds (O := 3) (fun i => if i = 2 then (2 : ℝ) else 1)).data
  obtain ⟨q, h1, _, h3⟩ := ordered _ 1 3 _ hd (by norm_num) (fun k i _ _ => by split <;> norm_num)
  refine ⟨q, h1, ?_⟩
  rw [h3 0 2 (by norm_num) (by norm_num)]
  have e : Finset.Icc 0 2 = {0, 1, 2} := by decide
  have l4 : Real.logb 2 4 = 2 := by
    rw [show (4 : ℝ) = 2 ^ (2 : ℝ) by norm_num]; exact Real.logb_rpow (by norm_num) (by norm_num)
  have g : gainSeries 1 (Finset.Icc 0 2) (fun _ i => if i = 2 then (2 : ℝ) else 1) = 6 := by
    unfold gainSeries gainOver xlog2
    rw [e]
    simp
    norm_num
    rw [l4]
    norm_num
  have l : lossSeries 1 (Finset.Icc 0 2) (fun _ i => if i = 2 then (2 : ℝ) else 1) = 4 * Real.logb 2 3 - 6 := by
    unfold gainSeries at g
    unfold lossSeries lossOver
    rw [Finset.sum_range_one] at g ⊢
    rw [g, e]
    simp
    norm_num
  rw [g, l]

/-! ## The hypotheses are met by concrete inputs (`Proofs/Samples.lean`) -/

example := orderedAnySign _ 2 3 (fun k i => k - i) (Sample.oData _) (by decide)
example := singletons 2 1 (fun k i => k - i)

end Lp.C05
