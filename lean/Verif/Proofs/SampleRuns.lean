import Verif.Proofs.SampleBest
import Verif.Proofs.SearchInst
import Verif.Spec.Float

/-!
# Runs on the concrete tables of `Proofs/Samples.lean`, for the examples beside the theorems
-/

namespace Lp.Sample
open Spec

/-! ## The searches between 0 and 1, threshold 1/16 -/

theorem oIs : IsPartitioner (oOps (F := ℚ) oQ) := .ordered oQ 3 _ oRep

theorem hIs : IsPartitioner (hOps (F := ℚ) hQ md) := .hierarchical 4 tree md hQ _ right (by decide) hRep

theorem dIs : IsPartitioner (dOps (F := ℚ) dQ md) := .spatiotemporal 4 tree md 3 dQ _ right (by decide) (by decide) dRep

theorem oRuns : ∃ st, computeBestPartitions (oOps oQ) false 20 (1 / 16 : ℚ) 0 1 PState.empty = .ok st :=
  ok_of_isOk (by decide +kernel)

theorem hRuns : ∃ st, computeBestPartitions (hOps hQ md) false 20 (1 / 16 : ℚ) 0 1 PState.empty = .ok st :=
  ok_of_isOk (by decide +kernel)

theorem dRuns : ∃ st, computeBestPartitions (dOps dQ md) false 20 (1 / 16 : ℚ) 0 1 PState.empty = .ok st :=
  ok_of_isOk (by decide +kernel)

/-- Result of the search on the ordered table. -/
noncomputable def oSt : PState ℚ ℚ (OPartition ℚ ℚ) (ℚ × Int × Int × ℚ × ℚ) := oRuns.choose

theorem oRun : computeBestPartitions (oOps oQ) false 20 (1 / 16 : ℚ) 0 1 PState.empty = .ok oSt := oRuns.choose_spec

/-- Result of the search on the hierarchical table. -/
noncomputable def hSt : PState ℚ ℚ (HPartition ℚ ℚ) (ℚ × Nat × Nat × ℚ × ℚ) := hRuns.choose

theorem hRun : computeBestPartitions (hOps hQ md) false 20 (1 / 16 : ℚ) 0 1 PState.empty = .ok hSt := hRuns.choose_spec

/-- Result of the search on the spatiotemporal table. -/
noncomputable def dSt : PState ℚ ℚ (DPartition ℚ ℚ) (ℚ × Nat × Int × Nat × Nat × ℚ × ℚ) := dRuns.choose

theorem dRun : computeBestPartitions (dOps dQ md) false 20 (1 / 16 : ℚ) 0 1 PState.empty = .ok dSt := dRuns.choose_spec

end Lp.Sample
