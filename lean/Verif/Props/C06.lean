import Verif.Proofs.HEntropy
import Verif.Proofs.Data
import Verif.Props.C03
import Verif.Proofs.Samples

/-!
# C06 — hierarchical qualities are the entropy measures

`HData v m leaves V` (`Spec/Data.lean`): the value of leaf `h` in series `k` is `V k h`.
-/

namespace Lp.C06
open Spec

/-- After `computeQualities` on non-negative hierarchical data (right metadata, at least one inner node) every node
has the entropy measures of the set of leaves below it; nothing is accessed out of range. -/
theorem hierarchical (leaves : Nat) (parents : List Int) (v : HValues ℝ) (hmd : RightMeta leaves parents v.md)
    (hlt : leaves < parents.length) (m : Nat) (V : Nat → Nat → ℝ) (hv : HData v m leaves V)
    (h0 : ∀ k h, k < m → h < leaves → 0 ≤ V k h) :
    ∃ q, (HQualities.ofValues v).computeQualities = .ok ⟨some v, some q, v.md⟩ ∧ q.length = parents.length ∧
      (∀ h, h < parents.length → q[h]? = some ⟨gainSeries m (leavesUnder leaves parents h) V,
        lossSeries m (leavesUnder leaves parents h) V⟩) ∧
      (∀ h, h < leaves → q[h]? = some ⟨0, 0⟩) := by
  obtain ⟨q, e, h⟩ := hqCompute_entropy hmd hv hlt h0
  refine ⟨q, ?_, h.len, h.cell, ?_⟩
  · unfold HQualities.computeQualities HQualities.ofValues
    simp only [e, okBind, pureOk]
  · intro x hx
    rw [h.cell x (by omega), leavesUnder_leaf hmd.tree hx]
    unfold gainSeries lossSeries lossOver gainOver
    simp

/-- The same for data of any sign. -/
theorem hierarchicalAnySign (leaves : Nat) (parents : List Int) (v : HValues ℝ) (hmd : RightMeta leaves parents v.md)
    (hlt : leaves < parents.length) (m : Nat) (V : Nat → Nat → ℝ) (hv : HData v m leaves V) :
    ∃ q, (HQualities.ofValues v).computeQualities = .ok ⟨some v, some q, v.md⟩ ∧ q.length = parents.length ∧
      ∀ h, h < parents.length → q[h]? = some ⟨∑ k ∈ Finset.range m, gainAny (leavesUnder leaves parents h) (V k),
        ∑ k ∈ Finset.range m, lossAny (leavesUnder leaves parents h) (V k)⟩ := by
  obtain ⟨q, e, h⟩ := hqCompute_spec hmd hv hlt
  refine ⟨q, ?_, h.len, fun x hx => ?_⟩
  · unfold HQualities.computeQualities HQualities.ofValues
    simp only [e, okBind, pureOk]
  · rw [h.cell x hx]
    unfold hCell leafSum
    rw [qSeries_any rfl]

/-- From the nested vector and the parent vector of a hierarchy that satisfies the condition of C03 (two dimensions; the
other containers differ only in `containers`). -/
theorem hierarchicalN2 (L S : Nat) (parents : List Int) (root : Nat) (t : IsTree L parents root)
    (hb : NearestFirst L parents) (hlt : L < parents.length) (hL : 0 < L) (f : Nat × Nat → ℝ)
    (h0 : ∀ l k, l < L → k < S → 0 ≤ f (l, k)) :
    ∃ c q, HValuesN2.ofVec (table2 L S f) parents = .ok c ∧
      (HQualities.ofValues c.toHValues).computeQualities = .ok ⟨some c.toHValues, some q, c.md⟩ ∧
      q.length = parents.length ∧
      ∀ h, h < parents.length → q[h]? = some
        ⟨gainSeries S (leavesUnder L parents h) (fun k l => f (l, k)),
         lossSeries S (leavesUnder L parents h) (fun k l => f (l, k))⟩ := by
  obtain ⟨md, hm, _, hr⟩ := C03.right L parents root t hb
  have hc : HValuesN2.ofVec (table2 L S f) parents = .ok ⟨S, md, table2 L S f⟩ := by
    unfold HValuesN2.ofVec
    rw [SIZE1_table2, hm, SIZE2_table2 hL]
    rfl
  obtain ⟨md', hm', hh⟩ := HValuesN2.ofVec_holds hL f hc
  obtain ⟨q, h1, h2, h3, _⟩ := hierarchical L parents (HValuesN2.toHValues ⟨S, md, table2 L S f⟩) hr hlt S _ hh.data
    (fun k l hk hl => h0 l k hl hk)
  exact ⟨_, q, hc, h1, h2, h3⟩

/-- The four containers hold the data they were given. -/
theorem containers :
    (∀ (c : HValuesN1 ℝ) L md f, c.Holds L md f → HData c.toHValues 1 L (fun _ => f)) ∧
    (∀ (c : HValuesN2 ℝ) L V md f, c.Holds L V md f → HData c.toHValues V L (fun k l => f (l, k))) ∧
    (∀ (c : HValuesN3 ℝ) L I J md f, c.Holds L I J md f →
      HData c.toHValues (I * J) L (fun k l => f (l, k / J, k % J))) ∧
    (∀ (c : HValuesN4 ℝ) L I J Z md f, c.Holds L I J Z md f →
      HData c.toHValues (I * J * Z) L (fun k l => f (l, k / Z / J, k / Z % J, k % Z))) :=
  ⟨fun _ _ _ _ h => h.data, fun _ _ _ _ _ h => h.data, fun _ _ _ _ _ _ h => h.data, fun _ _ _ _ _ _ _ h => h.data⟩

/-- A tree with 4 leaves, two inner nodes and a root that is not the last index. -/
example : ∃ c q, HValuesN2.ofVec (table2 4 2 (fun x => (x.1 + x.2 : ℝ))) [4, 4, 6, 6, 5, -1, 5] = .ok c ∧
      (HQualities.ofValues c.toHValues).computeQualities = .ok ⟨some c.toHValues, some q, c.md⟩ ∧
      q.length = 7 ∧
      ∀ h, h < 7 → q[h]? = some
        ⟨gainSeries 2 (leavesUnder 4 [4, 4, 6, 6, 5, -1, 5] h) (fun k l => (l + k : ℝ)),
         lossSeries 2 (leavesUnder 4 [4, 4, 6, 6, 5, -1, 5] h) (fun k l => (l + k : ℝ))⟩ :=
  hierarchicalN2 4 2 _ 5
    (.ofCheck (fun h => if h < 4 then 2 else if h = 5 then 0 else 1) (by decide) (by decide) (by decide) (by decide))
    C03.sevenNearest (by decide) (by decide) _ (fun l k _ _ => by positivity)

/-! ## The hypotheses are met by concrete inputs (`Proofs/Samples.lean`) -/

example := hierarchical 4 Sample.tree Sample.hV Sample.right (by decide) 2 _ Sample.h Sample.h_nonneg
example := hierarchicalAnySign 4 Sample.tree (Sample.hOf fun k i => k - i) Sample.right (by decide) 2 _ (Sample.hData _)
example := containers.2.1 _ _ _ _ _ (Sample.hHolds Sample.val)

end Lp.C06
