import Verif.Proofs.SearchList
import Verif.Proofs.SampleRuns

/-!
# C28 — the list of significant parameters is strictly increasing and free of repetitions
-/

namespace Lp.C28
open Spec
variable {F K P T : Type} [Field K] [LinearOrder K] [IsStrictOrderedRing K] [FloatP F K] {u : K}

/-- Every search on `0 ≤ lo < hi ≤ 1` that returns: `getPList()` starts with `lo`, is strictly increasing, stays in
the range; `getPartitions()` maps exactly these parameters to their best partitions, `getQualityList()` to the
qualities of these; no two of the partitions are equal; the last one equals the partition of `hi`. -/
theorem list (fl : FloatLaws F K u) (ops : PartOps F K P T) (ho : IsPartitioner ops) (t lo hi : F)
    (h0 : (0 : K) ≤ FloatP.toK lo) (hlt : (FloatP.toK lo : K) < FloatP.toK hi) (h1 : (FloatP.toK hi : K) ≤ 1)
    (fuel : Nat) (st st' : PState F K P T) (h : computeBestPartitions ops false fuel t lo hi st = .ok st') :
    st'.pList.head? = some lo ∧
    st'.pList.Pairwise (fun x y => (FloatP.toK x : K) < FloatP.toK y) ∧
    (∀ x ∈ st'.pList, (FloatP.toK lo : K) ≤ FloatP.toK x ∧ (FloatP.toK x : K) ≤ FloatP.toK hi) ∧
    st'.partitions.map Prod.fst = st'.pList ∧
    (∀ e ∈ st'.partitions, ops.best e.1 = .ok e.2) ∧
    st'.qualityList = st'.partitions.map (fun e => (e.1, ops.quality e.2)) ∧
    st'.partitions.Pairwise (fun e e' => ops.same e.2 e'.2 = false) ∧
    (∃ Ph e, ops.best hi = .ok Ph ∧ st'.partitions.getLast? = some e ∧ ops.same Ph e.2 = true) := by
  obtain ⟨B, so⟩ := isPartitioner_ops ho
  have hint := isPartitioner_interval fl ho so
  obtain ⟨S, hc, hb, e1, hs, e2, e3, _⟩ := search_full fl so h0 hlt h1 h
  have hr := samples_range (K := K) hlt hb
  refine ⟨by rw [e1]; rfl, hs, ?_, by rw [e2, List.map_map]; exact List.map_id _, ?_, ?_, ?_, ?_⟩
  · intro x hx
    rw [e1] at hx
    exact hr x ((keep_sublist _).mem hx)
  · intro e he
    rw [e2] at he
    obtain ⟨x, _, rfl⟩ := List.mem_map.mp he
    exact so.best x
  · rw [e3, e2, List.map_map]; rfl
  · rw [e2, List.pairwise_map, e1]
    exact keep_distinct (K := K) (same := fun x y => ops.same (B x) (B y)) (fun x y => so.symm x y)
      (fun x y z => so.trans x y z) (fun x => (FloatP.toK lo : K) ≤ FloatP.toK x ∧ (FloatP.toK x : K) ≤ FloatP.toK hi)
      (fun x y z hx _ hz hxy hyz hsame => hint x y z (le_trans h0 hx.1) hxy.le hyz.le (le_trans hz.2 h1) hsame) _ hr
      (resolved_pairwise hc)
  · obtain ⟨k, y, hk, hy⟩ := keep_last (same := fun x y => ops.same (B x) (B y)) so.refl
      (fun x y z => so.trans x y z) (lo :: S) hi
    refine ⟨B hi, (y, B y), so.best hi, ?_, hy⟩
    rw [e2, e1, hk]; simp

/-- Concrete case: three different partitions, parameters `0 < … < … ≤ 1`. -/
example : (computeBestPartitions (oOps C16.exQ) false 10 (1 / 100 : ℚ) 0 1 PState.empty).map
    (fun st => (st.pList.length, st.pList.head?, st.partitions.map (fun e => e.2.parts.length), st.qualityList.length)) =
    .ok (3, some 0, [3, 2, 1], 3) := by decide +kernel

/-! ## The hypotheses are met by concrete inputs (`Proofs/Samples.lean`) -/

example := list (exactLaws ℚ) _ Sample.oIs (1 / 16) 0 1 (by decide +kernel) (by decide +kernel) (by decide +kernel) 20 _ _  Sample.oRun
example := list (exactLaws ℚ) _ Sample.hIs (1 / 16) 0 1 (by decide +kernel) (by decide +kernel) (by decide +kernel) 20 _ _  Sample.hRun
example := list (exactLaws ℚ) _ Sample.dIs (1 / 16) 0 1 (by decide +kernel) (by decide +kernel) (by decide +kernel) 20 _ _  Sample.dRun

end Lp.C28
