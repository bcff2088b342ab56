import Verif.Proofs.DEntropy
import Verif.Proofs.Data
import Verif.Props.C03
import Verif.Proofs.Samples

/-!
# C07 — spatiotemporal qualities are the entropy measures

`DData v m leaves n V` (`Spec/Data.lean`): the value of leaf `h`, slice `x` in series `k` is `V k (h, x)`.
-/

namespace Lp.C07
open Spec

/-- After `computeQualities` on non-negative spatiotemporal data (right metadata with at least one inner node, up to
65535 slices, less than 2^31 cells) every node and interval has the entropy measures of the set of cells (leaf below
the node, slice in the interval); nothing is accessed out of range and no `int` overflows. -/
theorem spatiotemporal (leaves : Nat) (parents : List Int) (v : DValues ℝ) (hmd : RightMeta leaves parents v.md)
    (hlt : leaves < parents.length) (m n : Nat) (hn : n ≤ 65535) (hb : leaves * n < 2147483648)
    (V : Nat → Nat × Nat → ℝ) (hv : DData v m leaves n V)
    (h0 : ∀ k h x, k < m → h < leaves → x < n → 0 ≤ V k (h, x)) :
    ∃ q, (DQualities.ofValues v).computeQualities = .ok ⟨some v, some q, v.md⟩ ∧ q.length = parents.length ∧
      ∀ h i j, h < parents.length → i ≤ j → j < n → mget q h i j = .ok
        ⟨gainSeries m (leavesUnder leaves parents h ×ˢ Finset.Icc i j) V,
         lossSeries m (leavesUnder leaves parents h ×ˢ Finset.Icc i j) V⟩ := by
  obtain ⟨q, e, h⟩ := dqCompute_entropy hmd hlt hv hn hb h0
  refine ⟨q, ?_, h.len, fun x i j hx hij hj => h.get hx hij hj⟩
  unfold DQualities.computeQualities DQualities.ofValues
  simp only [e, okBind, pureOk]

/-- The same for data of any sign. -/
theorem spatiotemporalAnySign (leaves : Nat) (parents : List Int) (v : DValues ℝ)
    (hmd : RightMeta leaves parents v.md)
    (hlt : leaves < parents.length) (m n : Nat) (hn : n ≤ 65535) (hb : leaves * n < 2147483648)
    (V : Nat → Nat × Nat → ℝ) (hv : DData v m leaves n V) :
    ∃ q, (DQualities.ofValues v).computeQualities = .ok ⟨some v, some q, v.md⟩ ∧ q.length = parents.length ∧
      ∀ h i j, h < parents.length → i ≤ j → j < n → mget q h i j = .ok
        ⟨∑ k ∈ Finset.range m, gainAny (leavesUnder leaves parents h ×ˢ Finset.Icc i j) (V k),
         ∑ k ∈ Finset.range m, lossAny (leavesUnder leaves parents h ×ˢ Finset.Icc i j) (V k)⟩ := by
  obtain ⟨q, e, h⟩ := dqCompute_spec hmd hlt hv hn hb
  refine ⟨q, ?_, h.len, fun x i j hx hij hj => ?_⟩
  · unfold DQualities.computeQualities DQualities.ofValues
    simp only [e, okBind, pureOk]
  · rw [h.get hx hij hj]
    unfold dCell
    simp only [leafSum_W]
    rw [qSeries_any]
    rw [Finset.card_product, card_Icc i j hij]
    push_cast
    ring

/-- From the nested vector and the parent vector of a hierarchy that satisfies the condition of C03 (two dimensions). -/
theorem spatiotemporalN2 (L O : Nat) (parents : List Int) (root : Nat) (t : IsTree L parents root)
    (hb : NearestFirst L parents) (hlt : L < parents.length) (hL : 0 < L) (hO : O ≤ 65535) (hLO : L * O < 2147483648)
    (f : Nat × Nat → ℝ) (h0 : ∀ l x, l < L → x < O → 0 ≤ f (l, x)) :
    ∃ c q, DValuesN2.ofVec (table2 L O f) parents = .ok c ∧
      (DQualities.ofValues c.toDValues).computeQualities = .ok ⟨some c.toDValues, some q, c.md⟩ ∧
      q.length = parents.length ∧
      ∀ h i j, h < parents.length → i ≤ j → j < O → mget q h i j = .ok
        ⟨gainOver (leavesUnder L parents h ×ˢ Finset.Icc i j) f, lossOver (leavesUnder L parents h ×ˢ Finset.Icc i j) f⟩ := by
  obtain ⟨md, hm, _, hr⟩ := C03.right L parents root t hb
  have hc : DValuesN2.ofVec (table2 L O f) parents = .ok ⟨1, O, md, table2 L O f⟩ := by
    unfold DValuesN2.ofVec
    rw [SIZE1_table2, hm, SIZE2_table2 hL]
    rfl
  obtain ⟨md', hm', hh⟩ := DValuesN2.ofVec_holds hL f hc
  obtain ⟨q, h1, h2, h3⟩ := spatiotemporal L parents (DValuesN2.toDValues ⟨1, O, md, table2 L O f⟩) hr hlt 1 O hO hLO
    _ hh.data (fun k l x _ hl hx => h0 l x hl hx)
  refine ⟨_, q, hc, h1, h2, fun h i j a b c => ?_⟩
  rw [h3 h i j a b c]
  unfold gainSeries lossSeries
  simp

/-- The three containers hold the data they were given. -/
theorem containers :
    (∀ (c : DValuesN2 ℝ) L O md f, c.Holds L O md f → DData c.toDValues 1 L O (fun _ => f)) ∧
    (∀ (c : DValuesN3 ℝ) L V O md f, c.Holds L V O md f → DData c.toDValues V L O (fun k x => f (x.1, k, x.2))) ∧
    (∀ (c : DValuesN4 ℝ) L I J O md f, c.Holds L I J O md f →
      DData c.toDValues (I * J) L O (fun k x => f (x.1, k / J, k % J, x.2))) :=
  ⟨fun _ _ _ _ _ h => h.data, fun _ _ _ _ _ _ h => h.data, fun _ _ _ _ _ _ _ h => h.data⟩

/-- 4 leaves, 3 slices. -/
example : ∃ c q, DValuesN2.ofVec (table2 4 3 (fun x => (x.1 + x.2 : ℝ))) [4, 4, 6, 6, 5, -1, 5] = .ok c ∧
      (DQualities.ofValues c.toDValues).computeQualities = .ok ⟨some c.toDValues, some q, c.md⟩ ∧
      q.length = 7 ∧
      ∀ h i j, h < 7 → i ≤ j → j < 3 → mget q h i j = .ok
        ⟨gainOver (leavesUnder 4 [4, 4, 6, 6, 5, -1, 5] h ×ˢ Finset.Icc i j) (fun x => (x.1 + x.2 : ℝ)),
         lossOver (leavesUnder 4 [4, 4, 6, 6, 5, -1, 5] h ×ˢ Finset.Icc i j) (fun x => (x.1 + x.2 : ℝ))⟩ :=
  spatiotemporalN2 4 3 _ 5
    (.ofCheck (fun h => if h < 4 then 2 else if h = 5 then 0 else 1) (by decide) (by decide) (by decide) (by decide))
    C03.sevenNearest (by decide) (by decide) (by decide) (by decide) _ (fun l k _ _ => by positivity)

/-! ## The hypotheses are met by concrete inputs (`Proofs/Samples.lean`) -/

example := spatiotemporal 4 Sample.tree Sample.dV Sample.right (by decide) 2 3 (by decide) (by decide) _ Sample.d Sample.d_nonneg
example := spatiotemporalAnySign 4 Sample.tree (Sample.dOf fun k x => k - x.1 + x.2) Sample.right (by decide) 2 3 (by decide) (by decide) _ (Sample.dData _)
example := containers.2.1 _ _ _ _ _ _ (Sample.dHolds Sample.dVal)

end Lp.C07
