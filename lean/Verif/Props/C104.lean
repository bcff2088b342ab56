import Verif.Props.C47
import Verif.Props.C60
import Verif.Proofs.Mirror

/-!
# C104 — with one leaf a spatiotemporal search is an ordered search

C47 compares single partitions.  Here whole searches are compared: parameters, qualities, partitions, rows of the table,
`getP` and the AUC.
-/

namespace Lp.C104
open Spec
variable {F K : Type}

/-- The same tiling of the slices: same parts in the same order (the node forgotten), same total quality. -/
def SameTiling (P : DPartition F K) (Po : OPartition F K) : Prop :=
  Po.parts = P.parts.map (fun x => ⟨x.start, x.end, x.quality⟩) ∧ Po.quality = P.quality ∧ Po.parameter = P.parameter

/-- A row of the spatiotemporal table without the columns of the node. -/
def forget (x : F × Nat × Int × Nat × Nat × K × K) : F × Int × Int × K × K :=
  (x.1, x.2.2.2.1, x.2.2.2.2.1, x.2.2.2.2.2.1, x.2.2.2.2.2.2)

section
variable [Field K] [LinearOrder K] [IsStrictOrderedRing K] [FloatP F K]

/-- One leaf, qualities given as tables, every threshold and range of parameters, either version of the loop that removes
repeated partitions (exact arithmetic). -/
theorem given (parents : List Int) (md : HMeta) (hmd : RightMeta 1 parents md) (n : Nat) (h0 : 0 < n) (hn : n ≤ 65535)
    (q : List (UTM (Quality K))) (qo : UTM (Quality K)) (Q : Nat → Nat → Quality K)
    (hq : MRep q parents.length n (fun _ i j => Q i j)) (hqo : qo.Rep n Q) (strict : Bool) (fuel : Nat) (t lo hi : F)
    (st : PState F K (DPartition F K) (F × Nat × Int × Nat × Nat × K × K))
    (st' : PState F K (OPartition F K) (F × Int × Int × K × K)) :
    C60.SearchesAgree SameTiling forget (computeBestPartitions (dOps q md) strict fuel t lo hi st)
      (computeBestPartitions (oOps qo) strict fuel t lo hi st') ∧
    ∀ s s', computeBestPartitions (dOps q md) strict fuel t lo hi st = .ok s →
      computeBestPartitions (oOps qo) strict fuel t lo hi st' = .ok s' →
      (∀ (randMax : K) (x : Int), getP randMax x s' = getP randMax x s) ∧
      ∀ rnd : K → K, computeAUC rnd s' = computeAUC rnd s := by
  have hD : IsPartitioner (dOps (F := F) q md) := .spatiotemporal 1 parents md n q _ hmd h0 hn hq
  have hO : IsPartitioner (oOps (F := F) qo) := .ordered qo n Q hqo
  have main : ∀ (p : F) X X', dBestPartition q md p = .ok X → oBestPartition qo p = .ok X' → SameTiling X X' := by
    intro p X X' e e'
    obtain ⟨P, Po, a1, b1, h1, h2⟩ := C47.oneLeafSame parents md hmd n h0 hn q qo Q hq hqo p
    rw [e] at a1; obtain rfl := Except.ok.inj a1
    rw [e'] at b1; obtain rfl := Except.ok.inj b1
    exact ⟨h1.symm, h2.symm, (isPartitioner_param hO p X' e').trans (isPartitioner_param hD p X e).symm⟩
  have r := opsRel_curve hD hO (fun p X X' e e' => (main p X X' e e').2.1)
  have hs := search_rel r forget (fun p a a' ha => by
    obtain ⟨p', e, e'⟩ := ha
    have h1 := (main p' a a' e e').1
    change (a'.parts.map _).Perm ((a.parts.map _).map _)
    rw [h1, List.map_map, List.map_map]
    exact List.Perm.refl _) strict fuel t lo hi st st'
  refine ⟨C60.agree_aux (fun a a' h => by obtain ⟨p, e, e'⟩ := h; exact main p a a' e e') hs, fun s s' e e' => ?_⟩
  rw [e, e'] at hs
  exact ⟨fun m x => getP_rel hs m x, fun rnd => computeAUC_rel hs rnd⟩

end

/-- From the data: one leaf, data of any sign. -/
theorem data [FloatP F ℝ] (parents : List Int) (v : DValues ℝ) (hmd : RightMeta 1 parents v.md) (hlt : 1 < parents.length)
    (m n : Nat) (h0 : 0 < n) (hn : n ≤ 65535) (V : Nat → Nat × Nat → ℝ) (hv : DData v m 1 n V)
    (w : OValues ℝ) (hw : OData w m n (fun k x => V k (0, x))) :
    ∃ q qo, (DQualities.ofValues v).computeQualities = .ok ⟨some v, some q, v.md⟩ ∧
      (OQualities.ofValues w).computeQualities = .ok ⟨some w, some qo⟩ ∧
      ∀ (strict : Bool) (fuel : Nat) (t lo hi : F)
        (st : PState F ℝ (DPartition F ℝ) (F × Nat × Int × Nat × Nat × ℝ × ℝ))
        (st' : PState F ℝ (OPartition F ℝ) (F × Int × Int × ℝ × ℝ)),
        C60.SearchesAgree SameTiling forget (computeBestPartitions (dOps q v.md) strict fuel t lo hi st)
          (computeBestPartitions (oOps qo) strict fuel t lo hi st') ∧
        ∀ s s', computeBestPartitions (dOps q v.md) strict fuel t lo hi st = .ok s →
          computeBestPartitions (oOps qo) strict fuel t lo hi st' = .ok s' →
          (∀ (randMax : ℝ) (x : Int), getP randMax x s' = getP randMax x s) ∧
          ∀ rnd : ℝ → ℝ, computeAUC rnd s' = computeAUC rnd s := by
  obtain ⟨q, e, hq⟩ := dq_objectAny hmd hlt hn (by omega) hv
  obtain ⟨qo, eo, hqo⟩ := oq_objectAny hw hn
  refine ⟨q, qo, e, eo, fun strict fuel t lo hi st st' => given parents v.md hmd n h0 hn q qo _ (hq.congr (fun h i j hh hij hj => ?_))
    hqo strict fuel t lo hi st st'⟩
  have hun : leavesUnder 1 parents h = {0} := by
    obtain ⟨l, hl, hu⟩ := hmd.tree.exists_leaf hh
    obtain rfl : l = 0 := by omega
    ext x
    rw [mem_leavesUnder, Finset.mem_singleton]
    exact ⟨fun h => by omega, fun h => h ▸ ⟨by omega, hu⟩⟩
  unfold anyQ dCells
  rw [hun, C47.leaf_aux]
  simp only [(C47.any_aux _ _ _).1, (C47.any_aux _ _ _).2]
  rfl

/-! ## Concrete cases -/

/-- One leaf below two more nodes, 3 slices, the qualities of C16: both searches end, with several parameters and the same
partitions. -/
example : (do let md ← mkMeta 1 [1, 2, -1]
              let s ← computeBestPartitions (dOps (F := ℚ) (List.replicate 3 C16.exQ) md) false 40 (1 / 8) 0 1 PState.empty
              let s' ← computeBestPartitions (oOps (F := ℚ) C16.exQ) false 40 (1 / 8) 0 1 PState.empty
              return (decide (1 < s.pList.length), s.pList == s'.pList, s.tuples.map forget == s'.tuples) :
              Res (Bool × Bool × Bool)) = .ok (true, true, true) := by
  decide +kernel

/-- The hypotheses are met: one leaf below a root, three slices. -/
example : ∃ md, mkMeta 1 [1, -1] = .ok md ∧
    C60.SearchesAgree SameTiling forget
      (computeBestPartitions (dOps (F := ℚ) (List.replicate 2 Sample.oQ) md) true 40 (1 / 8) 0 1 PState.empty)
      (computeBestPartitions (oOps (F := ℚ) Sample.oQ) true 40 (1 / 8) 0 1 PState.empty) := by
  have t : IsTree 1 [1, -1] 1 := .ofCheck (fun h => if h = 0 then 1 else 0) (by decide) (by decide) (by decide) (by decide)
  have b : Balanced 1 [1, -1] := .ofCheck (fun h => h) (by decide) (by decide) (by decide)
  obtain ⟨md, hm, _, hr⟩ := C03.right 1 [1, -1] 1 t (balanced_nearestFirst t b)
  exact ⟨md, hm, (given [1, -1] md hr 3 (by norm_num) (by norm_num) _ _ _
    ⟨rfl, fun h hh => ⟨Sample.oQ, List.getElem?_replicate_of_lt hh, Sample.oRep⟩⟩ Sample.oRep _ _ _ _ _ _ _).1⟩

end Lp.C104
