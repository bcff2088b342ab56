import Verif.Proofs.SearchInst
import Verif.Proofs.SampleRuns

/-!
# C29 — what the search returns on a degenerate range `min = max`

The parameter list is `[p]`, but the maps of partitions and of qualities and the partition table are empty: the
second copy of `p` in the list is removed together with the only map entry.  Hence `getP(P_MAX)` is `p`,
`getP(P_OPT)` dereferences a null pointer and the area is `1`.  Under the strict reading of the standard the
search itself is undefined (`C39`).
-/

namespace Lp.C29
open Spec
variable {F K P T : Type} [Field K] [LinearOrder K] [FloatP F K] {u : K}

/-- The result for every partitioner, threshold and parameter. -/
theorem degenerate (fl : FloatLaws F K u) (ops : PartOps F K P T) (ho : IsPartitioner ops) (t p : F) (fuel : Nat)
    (st : PState F K P T) :
    computeBestPartitions ops false (fuel + 1) t p p st = .ok ⟨[p], [], [], []⟩ ∧
    computeBestPartitions ops true (fuel + 1) t p p st = .error .badIterator := by
  obtain ⟨B, so⟩ := isPartitioner_ops ho
  have hA : ∀ s, addBest ops t (fuel + 1) (B p) (B p) s = .ok s := by
    intro s; rw [addBest_eq so, so.refl]; rfl
  have hins : mapInsert p (B p) [(p, B p)] = [(p, B p)] := by simp [mapInsert, lt_irrefl' fl]
  have hfind : mapDeref p [(p, B p)] = .ok (B p) := by simp [mapDeref, mapFind, lt_irrefl' fl]
  constructor
  · unfold computeBestPartitions
    simp only [so.best, okBind, hA, List.nil_append, mapInsert, lt_irrefl' fl]
    simp [dedup, vget, hfind, so.refl, mapErase, lt_irrefl' fl]
  · unfold computeBestPartitions
    simp only [so.best, okBind, hA, List.nil_append, mapInsert, lt_irrefl' fl]
    simp [dedup, vget, hfind, so.refl]

/-- What the other functions do afterwards. -/
theorem afterwards (p : F) (randMax : K) (rnd : K → K) :
    getP randMax 1 (⟨[p], [], [], []⟩ : PState F K P T) = .ok p ∧
    getP randMax 2 (⟨[p], [], [], []⟩ : PState F K P T) = .error .nullDeref ∧
    computeAUC rnd (⟨[p], [], [], []⟩ : PState F K P T) = .ok (rnd (1 - 0)) :=
  ⟨rfl, rfl, rfl⟩

/-- Concrete case. -/
example : (computeBestPartitions (oOps C16.exQ) false 5 (1 / 10 : ℚ) (1 / 2) (1 / 2) PState.empty).map
    (fun st => (st.pList, st.partitions.length, st.qualityList)) = .ok ([1 / 2], 0, []) := by decide +kernel

/-! ## The hypotheses are met by concrete inputs (`Proofs/Samples.lean`) -/

example := degenerate (exactLaws ℚ) _ Sample.dIs (1 / 16) (1 / 2) 7 Sample.dSt

end Lp.C29
