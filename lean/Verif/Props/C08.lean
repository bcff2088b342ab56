import Verif.Proofs.Ent
import Verif.Props.C05
import Verif.Props.C16
import Verif.Props.C19
import Verif.Props.C21
import Verif.Proofs.Samples

/-!
# C08 — gain and loss are never negative

For non-negative data (real arithmetic): every entry of the table computed by `computeQualities`, and the quality of
the partition returned for any parameter.
-/

namespace Lp.C08
open Spec
variable {F : Type} [FloatP F ℝ]

/-- Ordered data. -/
theorem ordered (v : OValues ℝ) (m n : Nat) (V : Nat → Nat → ℝ) (hv : OData v m n V) (hn : n ≤ 65535)
    (h0 : ∀ k i, k < m → i < n → 0 ≤ V k i) :
    ∃ q, (OQualities.ofValues v).computeQualities = .ok ⟨some v, some q⟩ ∧
      (∀ i j, i ≤ j → j < n → ∃ x, q.get i j = .ok x ∧ 0 ≤ x.gain ∧ 0 ≤ x.loss) ∧
      ∀ p : F, ∃ P, oBestPartition q p = .ok P ∧ 0 ≤ P.quality.gain ∧ 0 ≤ P.quality.loss := by
  obtain ⟨q, e, hq⟩ := oq_object hv hn h0
  have pos : ∀ i j, j < n → 0 ≤ (entQ m V (oCells (i, j))).gain ∧ 0 ≤ (entQ m V (oCells (i, j))).loss := fun i j hj =>
    ⟨gainSeries_nonneg (nonneg_oCells h0 hj), lossSeries_nonneg (nonneg_oCells h0 hj)⟩
  refine ⟨q, e, fun i j hij hj => ⟨_, hq.get hij hj, pos i j hj⟩, fun p => ?_⟩
  obtain ⟨P, L, h1, h2, _, h4, _⟩ := C16.optimal q n _ hq p
  refine ⟨P, h1, ?_, ?_⟩ <;> rw [h4]
  · exact gainOf_nonneg (fun I hI => (pos _ _ (h2.bounds I hI).2.2).1)
  · exact lossOf_nonneg (fun I hI => (pos _ _ (h2.bounds I hI).2.2).2)

/-- Hierarchical data. -/
theorem hierarchical (leaves : Nat) (parents : List Int) (v : HValues ℝ) (hmd : RightMeta leaves parents v.md)
    (hlt : leaves < parents.length) (m : Nat) (V : Nat → Nat → ℝ) (hv : HData v m leaves V)
    (h0 : ∀ k h, k < m → h < leaves → 0 ≤ V k h) :
    ∃ q, (HQualities.ofValues v).computeQualities = .ok ⟨some v, some q, v.md⟩ ∧
      (∀ h, h < parents.length → ∃ x, q[h]? = some x ∧ 0 ≤ x.gain ∧ 0 ≤ x.loss) ∧
      ∀ p : F, ∃ P, hBestPartition q v.md p = .ok P ∧ 0 ≤ P.quality.gain ∧ 0 ≤ P.quality.loss := by
  obtain ⟨q, e, hq⟩ := hq_object hmd hlt hv h0
  have pos : ∀ h, 0 ≤ (entQ m V (leavesUnder leaves parents h)).gain ∧ 0 ≤ (entQ m V (leavesUnder leaves parents h)).loss :=
    fun h => ⟨gainSeries_nonneg (nonneg_hCells h0), lossSeries_nonneg (nonneg_hCells h0)⟩
  refine ⟨q, e, fun h hh => ⟨_, hq.cell h hh, pos h⟩, fun p => ?_⟩
  obtain ⟨P, L, h1, _, _, h4, _⟩ := C19.optimal leaves parents v.md hmd hlt q _ hq p
  refine ⟨P, h1, ?_, ?_⟩ <;> rw [h4]
  · exact gainOf_nonneg (fun h _ => (pos h).1)
  · exact lossOf_nonneg (fun h _ => (pos h).2)

/-- Spatiotemporal data. -/
theorem spatiotemporal (leaves : Nat) (parents : List Int) (v : DValues ℝ) (hmd : RightMeta leaves parents v.md)
    (hlt : leaves < parents.length) (m n : Nat) (hn0 : 0 < n) (hn : n ≤ 65535) (hb : leaves * n < 2147483648)
    (V : Nat → Nat × Nat → ℝ) (hv : DData v m leaves n V)
    (h0 : ∀ k h x, k < m → h < leaves → x < n → 0 ≤ V k (h, x)) :
    ∃ q, (DQualities.ofValues v).computeQualities = .ok ⟨some v, some q, v.md⟩ ∧
      (∀ h i j, h < parents.length → i ≤ j → j < n → ∃ x, mget q h i j = .ok x ∧ 0 ≤ x.gain ∧ 0 ≤ x.loss) ∧
      ∀ p : F, ∃ P, dBestPartition q v.md p = .ok P ∧ 0 ≤ P.quality.gain ∧ 0 ≤ P.quality.loss := by
  obtain ⟨q, e, hq⟩ := dq_object hmd hlt hn hb hv h0
  have pos : ∀ h i j, j < n → 0 ≤ (entQ m V (dCells leaves parents ⟨h, i, j⟩)).gain ∧
      0 ≤ (entQ m V (dCells leaves parents ⟨h, i, j⟩)).loss := fun h i j hj =>
    ⟨gainSeries_nonneg (nonneg_dCells h0 hj), lossSeries_nonneg (nonneg_dCells h0 hj)⟩
  refine ⟨q, e, fun h i j hh hij hj => ⟨_, hq.get hh hij hj, pos h i j hj⟩, fun p => ?_⟩
  obtain ⟨P, L, h1, h2, _, _, h4, _⟩ := C21.optimal leaves parents v.md hmd n hn0 hn q _ hq p
  refine ⟨P, h1, ?_, ?_⟩ <;> rw [h4]
  · exact gainOf_nonneg (fun r hr => (pos _ _ _ (h2.1 r hr).2.2).1)
  · exact lossOf_nonneg (fun r hr => (pos _ _ _ (h2.1 r hr).2.2).2)

/-- The restriction to non-negative data is needed: the values 2 and -1 have gain -2. -/
theorem negativeData : ∃ q, (OQualities.ofValues (OValuesN1.ofVec ([2, -1] : List ℝ)).toOValues).computeQualities =
    .ok ⟨some (OValuesN1.ofVec ([2, -1] : List ℝ)).toOValues, some q⟩ ∧ ∃ x, q.get 0 1 = .ok x ∧ x.gain = -2 := by
  obtain ⟨q, h1, _, h3⟩ := C05.orderedAnySign (OValuesN1.ofVec ([2, -1] : List ℝ)).toOValues 1 2 _
    (OValuesN1.ofVec_holds (O := 2) (fun i => if i = 0 then (2 : ℝ) else -1)).data (by norm_num)
  refine ⟨q, h1, _, h3 0 1 (by norm_num) (by norm_num), ?_⟩
  unfold gainAny glog2 xlog2
  have : Finset.Icc 0 1 = {0, 1} := by decide
  rw [this]
  simp
  norm_num

/-- The hypotheses are met by three slices of one series. -/
example : ∃ q, (OQualities.ofValues (OValuesN1.ofVec [1, 0, 2]).toOValues).computeQualities =
    .ok ⟨some (OValuesN1.ofVec [1, 0, 2]).toOValues, some q⟩ ∧
      (∀ i j, i ≤ j → j < 3 → ∃ x, q.get i j = .ok x ∧ 0 ≤ x.gain ∧ 0 ≤ x.loss) ∧
      ∀ p : ℝ, ∃ P, oBestPartition q p = .ok P ∧ 0 ≤ P.quality.gain ∧ 0 ≤ P.quality.loss :=
  ordered _ 1 3 _ (OValuesN1.ofVec_holds (O := 3) (fun i => if i = 2 then (2 : ℝ) else if i = 1 then 0 else 1)).data
    (by norm_num) (fun k i _ _ => by split_ifs <;> norm_num)

/-! ## The hypotheses are met by concrete inputs (`Proofs/Samples.lean`) -/

example := hierarchical (F := ℝ) 4 Sample.tree Sample.hV Sample.right (by decide) 2 _ Sample.h Sample.h_nonneg
example := spatiotemporal (F := ℝ) 4 Sample.tree Sample.dV Sample.right (by decide) 2 3 (by decide) (by decide) (by decide) _ Sample.d Sample.d_nonneg

end Lp.C08
