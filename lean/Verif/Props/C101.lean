import Verif.Proofs.BestCount
import Verif.Props.C15
import Verif.Props.C18
import Verif.Props.C20
import Verif.Props.C63
import Verif.Props.C75

/-!
# C101 — how much work one best partition takes

The elementary step of `computeBestPartition` is a comparison of two tradeoffs.  `oBestPartitionC`, `hBestPartitionC` and
`dBestPartitionC` are the three computations with a counter of these comparisons (`Model/BestCount.lean`).  The number of
comparisons depends only on the size of the data, never on the values or the parameter.
-/

namespace Lp.C101
open Spec
variable {F K : Type} [LD K] [FloatP F K]

/-- Counting changes nothing (ordered). -/
theorem orderedSame (q : UTM (Quality K)) (p : F) : (oBestPartitionC q p).map Prod.fst = oBestPartition q p := by
  rw [oBest_count]
  cases oBestPartition q p <;> rfl

/-- Counting changes nothing (hierarchical). -/
theorem hierarchicalSame (q : List (Quality K)) (md : HMeta) (p : F) :
    (hBestPartitionC q md p).map Prod.fst = hBestPartition q md p := by
  rw [hBest_count]
  cases hBestPartition q md p <;> rfl

/-- Counting changes nothing (spatiotemporal). -/
theorem spatiotemporalSame {leaves : Nat} {parents : List Int} {md : HMeta} (hmd : RightMeta leaves parents md)
    (q : List (UTM (Quality K))) (n : Nat) (Q : Nat → Nat → Nat → Quality K)
    (hq : MRep q parents.length n Q) (p : F) :
    (dBestPartitionC q md p).map Prod.fst = dBestPartition q md p := by
  obtain ⟨q0, h0, _⟩ := hq.cell 0 (by have := hmd.tree.rootLt; omega)
  rw [dBest_count hmd q q0 h0]
  cases dBestPartition q md p <;> rfl

/-- Ordered aggregation of `n` slices: one comparison for each pair of slices, whatever the qualities, the parameter and the
arithmetic. -/
theorem ordered (q : UTM (Quality K)) (n : Nat) (f : Nat → Nat → Quality K) (hq : q.Rep n f) (p : F) :
    ∃ P, oBestPartition q p = .ok P ∧ oBestPartitionC q p = .ok (P, n * (n - 1) / 2) := by
  obtain ⟨P, _, h, _⟩ := C15.tiling q n f hq p
  refine ⟨P, h, ?_⟩
  rw [oBest_count, h, hq.size]
  rfl

/-- Hierarchical aggregation: one comparison for each inner node. -/
theorem hierarchical (leaves : Nat) (parents : List Int) (md : HMeta)
    (hmd : RightMeta leaves parents md) (hlt : leaves < parents.length)
    (q : List (Quality K)) (Q : Nat → Quality K) (hq : VRep q parents.length Q) (p : F) :
    ∃ P, hBestPartition q md p = .ok P ∧ hBestPartitionC q md p = .ok (P, parents.length - leaves) := by
  obtain ⟨P, _, h, _⟩ := C18.cover leaves parents md hmd hlt q Q hq p
  refine ⟨P, h, ?_⟩
  rw [hBest_count, h, hmd.hsize, hmd.leaveSize, show parents.length - 1 - leaves + 1 = parents.length - leaves by omega]
  rfl

/-- Spatiotemporal aggregation of `n` slices: for each node one comparison for each interval and each cut of it, and for each inner
node one more for each interval. -/
theorem spatiotemporal (leaves : Nat) (parents : List Int) (md : HMeta)
    (hmd : RightMeta leaves parents md) (n : Nat) (h0 : 0 < n) (hn : n ≤ 65535)
    (q : List (UTM (Quality K))) (Q : Nat → Nat → Nat → Quality K) (hq : MRep q parents.length n Q) (p : F) :
    ∃ P, dBestPartition q md p = .ok P ∧ dBestPartitionC q md p =
      .ok (P, parents.length * ((n ^ 3 - n) / 6) + (parents.length - leaves) * (n * (n + 1) / 2)) := by
  obtain ⟨P, _, h, _⟩ := C20.cover leaves parents md hmd n h0 hn q Q hq p
  refine ⟨P, h, ?_⟩
  obtain ⟨q0, e, r⟩ := hq.cell 0 (by have := hmd.tree.rootLt; omega)
  rw [dBest_count hmd q q0 e, h, r.size]
  rfl

/-- Comparisons of a run with counter (none if it fails). -/
def comparisons {P : Type} : Res (P × Nat) → Nat
  | .ok r => r.2
  | .error _ => 0

theorem sum_aux {P : Type} {calls : List F} {f : F → Res (P × Nat)} {m : Nat} (h : ∀ p, ∃ P, f p = .ok (P, m)) :
    (calls.map (fun x => comparisons (f x))).sum = calls.length * m := by
  have : ∀ x, comparisons (f x) = m := by
    intro x
    obtain ⟨P, e⟩ := h x
    rw [e]; rfl
  simp [this]

end Lp.C101

namespace Lp.C101
open Spec
variable {F K : Type} [Field K] [LinearOrder K] [IsStrictOrderedRing K] [FloatP F K] {u : K}

/-- A whole ordered search (`k` different partitions found, `2^N` thresholds less the rounding cover the range): at most `N` times
`k - 1` plus two times the comparisons of one best partition, whatever the qualities. -/
theorem searchOrdered (fl : FloatLaws F K u) (q : UTM (Quality K)) (n : Nat) (f : Nat → Nat → Quality K) (hq : q.Rep n f)
    (t lo hi : F) (h0 : (0 : K) ≤ FloatP.toK lo) (hlt : (FloatP.toK lo : K) < FloatP.toK hi) (h1 : (FloatP.toK hi : K) ≤ 1)
    (N : Nat) (hN : (FloatP.toK hi : K) - FloatP.toK lo ≤ 2 ^ N * (FloatP.toK t - 6 * u) + 5 * u)
    (fuel : Nat) (hf : N < fuel) (st : PState F K (OPartition F K) (F × Int × Int × K × K)) :
    ∃ st' calls, computeBestPartitionsC (oOps q) false fuel t lo hi st = .ok (st', calls) ∧
      (calls.map (fun x => comparisons (oBestPartitionC q x))).sum ≤ (2 + N * (st'.pList.length - 1)) * (n * (n - 1) / 2) := by
  obtain ⟨st', calls, h, _, _, _, h4, _⟩ := C63.work fl _ (.ordered q n f hq) t lo hi h0 hlt h1 N hN fuel hf st
  refine ⟨st', calls, h, ?_⟩
  rw [sum_aux (fun p => (ordered q n f hq p).imp fun _ h => h.2)]
  exact Nat.mul_le_mul_right _ h4

/-- A whole hierarchical search. -/
theorem searchHierarchical (fl : FloatLaws F K u) (leaves : Nat) (parents : List Int) (md : HMeta)
    (hmd : RightMeta leaves parents md) (hl : leaves < parents.length)
    (q : List (Quality K)) (Q : Nat → Quality K) (hq : VRep q parents.length Q)
    (t lo hi : F) (h0 : (0 : K) ≤ FloatP.toK lo) (hlt : (FloatP.toK lo : K) < FloatP.toK hi) (h1 : (FloatP.toK hi : K) ≤ 1)
    (N : Nat) (hN : (FloatP.toK hi : K) - FloatP.toK lo ≤ 2 ^ N * (FloatP.toK t - 6 * u) + 5 * u)
    (fuel : Nat) (hf : N < fuel) (st : PState F K (HPartition F K) (F × Nat × Nat × K × K)) :
    ∃ st' calls, computeBestPartitionsC (hOps q md) false fuel t lo hi st = .ok (st', calls) ∧
      (calls.map (fun x => comparisons (hBestPartitionC q md x))).sum ≤
        (2 + N * (st'.pList.length - 1)) * (parents.length - leaves) := by
  obtain ⟨st', calls, h, _, _, _, h4, _⟩ :=
    C63.work fl _ (.hierarchical leaves parents md q Q hmd hl hq) t lo hi h0 hlt h1 N hN fuel hf st
  refine ⟨st', calls, h, ?_⟩
  rw [sum_aux (fun p => (hierarchical leaves parents md hmd hl q Q hq p).imp fun _ h => h.2)]
  exact Nat.mul_le_mul_right _ h4

/-- A whole spatiotemporal search. -/
theorem searchSpatiotemporal (fl : FloatLaws F K u) (leaves : Nat) (parents : List Int) (md : HMeta)
    (hmd : RightMeta leaves parents md) (n : Nat) (hn0 : 0 < n) (hn : n ≤ 65535)
    (q : List (UTM (Quality K))) (Q : Nat → Nat → Nat → Quality K) (hq : MRep q parents.length n Q)
    (t lo hi : F) (h0 : (0 : K) ≤ FloatP.toK lo) (hlt : (FloatP.toK lo : K) < FloatP.toK hi) (h1 : (FloatP.toK hi : K) ≤ 1)
    (N : Nat) (hN : (FloatP.toK hi : K) - FloatP.toK lo ≤ 2 ^ N * (FloatP.toK t - 6 * u) + 5 * u)
    (fuel : Nat) (hf : N < fuel) (st : PState F K (DPartition F K) (F × Nat × Int × Nat × Nat × K × K)) :
    ∃ st' calls, computeBestPartitionsC (dOps q md) false fuel t lo hi st = .ok (st', calls) ∧
      (calls.map (fun x => comparisons (dBestPartitionC q md x))).sum ≤ (2 + N * (st'.pList.length - 1)) *
        (parents.length * ((n ^ 3 - n) / 6) + (parents.length - leaves) * (n * (n + 1) / 2)) := by
  obtain ⟨st', calls, h, _, _, _, h4, _⟩ :=
    C63.work fl _ (.spatiotemporal leaves parents md n q Q hmd hn0 hn hq) t lo hi h0 hlt h1 N hN fuel hf st
  refine ⟨st', calls, h, ?_⟩
  rw [sum_aux (fun p => (spatiotemporal leaves parents md hmd n hn0 hn q Q hq p).imp fun _ h => h.2)]
  exact Nat.mul_le_mul_right _ h4

/-- Hierarchical data that are not negative, from the data to the end of the search: at most `2 + N * I` times `I` comparisons, with
`I` the number of inner nodes.  No search makes more, whatever it finds. -/
theorem hierarchicalData {F : Type} [FloatP F ℝ] {u : ℝ} (fl : FloatLaws F ℝ u) (leaves : Nat) (parents : List Int) (v : HValues ℝ)
    (hmd : RightMeta leaves parents v.md) (hl : leaves < parents.length) (m : Nat) (V : Nat → Nat → ℝ)
    (hv : HData v m leaves V) (hpos : ∀ k h, k < m → h < leaves → 0 ≤ V k h) :
    ∃ q : List (Quality ℝ), (HQualities.ofValues v).computeQualities = .ok ⟨some v, some q, v.md⟩ ∧
      ∀ (t lo hi : F), (0 : ℝ) ≤ FloatP.toK lo → (FloatP.toK lo : ℝ) < FloatP.toK hi → (FloatP.toK hi : ℝ) ≤ 1 →
        ∀ (N : Nat), (FloatP.toK hi : ℝ) - FloatP.toK lo ≤ 2 ^ N * (FloatP.toK t - 6 * u) + 5 * u →
        ∀ (fuel : Nat), N < fuel → ∀ st : PState F ℝ (HPartition F ℝ) (F × Nat × Nat × ℝ × ℝ),
          ∃ st' calls, computeBestPartitionsC (hOps q v.md) false fuel t lo hi st = .ok (st', calls) ∧
            (calls.map (fun x => comparisons (hBestPartitionC q v.md x))).sum ≤
              (2 + N * (parents.length - leaves)) * (parents.length - leaves) := by
  obtain ⟨q, e, hq⟩ := hq_object hmd hl hv hpos
  refine ⟨q, e, fun t lo hi h0 hlt h1 N hN fuel hf st => ?_⟩
  obtain ⟨st', calls, h, hc⟩ := searchHierarchical fl leaves parents v.md hmd hl q _ hq t lo hi h0 hlt h1 N hN fuel hf st
  refine ⟨st', calls, h, hc.trans (Nat.mul_le_mul_right _ (Nat.add_le_add_left (Nat.mul_le_mul_left _ ?_) _))⟩
  obtain ⟨q', e', _, hs⟩ := C75.hierarchical fl leaves parents v hmd hl m V hv hpos
  have : q' = q := by
    rw [e] at e'
    have := Except.ok.inj e'
    simp only [HQualities.mk.injEq, Option.some.injEq] at this
    exact this.2.1.symm
  subst this
  have := (hs t lo hi h0 hlt h1 fuel st st' (by rw [← computeBestPartitionsC_fst, h]; rfl)).2
  omega

/-! ## Concrete runs (`Proofs/Samples.lean`): three slices, seven nodes of which four leaves -/

example : (oBestPartitionC Sample.oQ (1 / 2 : ℚ)).map Prod.snd = .ok 3 := by decide +kernel
example : (hBestPartitionC Sample.hQ Sample.md (1 / 2 : ℚ)).map Prod.snd = .ok 3 := by decide +kernel
example : (dBestPartitionC Sample.dQ Sample.md (1 / 2 : ℚ)).map Prod.snd = .ok (7 * 4 + 3 * 6) := by decide +kernel

example := ordered Sample.oQ 3 _ Sample.oRep (1 / 2 : ℚ)
example := hierarchical 4 Sample.tree Sample.md Sample.right (by decide) Sample.hQ _ Sample.hRep (1 / 2 : ℚ)
example := spatiotemporal 4 Sample.tree Sample.md Sample.right 3 (by decide) (by decide) Sample.dQ _ Sample.dRep (1 / 2 : ℚ)
example := spatiotemporalSame Sample.right Sample.dQ 3 _ Sample.dRep (1 / 2 : ℚ)
example := searchOrdered (exactLaws ℚ) Sample.oQ 3 _ Sample.oRep (1 / 16) 0 1 (by decide +kernel) (by decide +kernel)
  (by decide +kernel) 4 (by decide +kernel) 20 (by decide) PState.empty
example := searchHierarchical (exactLaws ℚ) 4 Sample.tree Sample.md Sample.right (by decide) Sample.hQ _ Sample.hRep (1 / 16) 0 1
  (by decide +kernel) (by decide +kernel) (by decide +kernel) 4 (by decide +kernel) 20 (by decide) PState.empty
example := searchSpatiotemporal (exactLaws ℚ) 4 Sample.tree Sample.md Sample.right 3 (by decide) (by decide) Sample.dQ _ Sample.dRep
  (1 / 16) 0 1 (by decide +kernel) (by decide +kernel) (by decide +kernel) 4 (by decide +kernel) 20 (by decide) PState.empty

/-- The values 1, 2, 3, 4 on the tree of C03 (three inner nodes), threshold 1/1000: at most 96 comparisons. -/
example : ∃ c q, HValuesN1.ofVec (table1 4 (fun i => (i + 1 : ℝ))) [4, 4, 6, 6, 5, -1, 5] = .ok c ∧
    (HQualities.ofValues c.toHValues).computeQualities = .ok ⟨some c.toHValues, some q, c.md⟩ ∧
    ∃ st' calls, computeBestPartitionsC (hOps q c.md) false 11 (1 / 1000 : ℝ) 0 1 PState.empty = .ok (st', calls) ∧
      (calls.map (fun x => comparisons (hBestPartitionC q c.md x))).sum ≤ 96 := by
  obtain ⟨md, hm, _, hr⟩ := C03.right 4 [4, 4, 6, 6, 5, -1, 5] 5 C03.sevenTree C03.sevenNearest
  obtain ⟨c, hc, hcm⟩ : ∃ c : HValuesN1 ℝ, HValuesN1.ofVec (table1 4 (fun i => (i + 1 : ℝ))) [4, 4, 6, 6, 5, -1, 5] = .ok c ∧
      c.md = md := by
    unfold HValuesN1.ofVec
    rw [SIZE1_table1, hm]
    exact ⟨_, rfl, rfl⟩
  obtain ⟨_, _, hh⟩ := HValuesN1.ofVec_holds _ hc
  obtain ⟨q, h1, h2⟩ := hierarchicalData (F := ℝ) (exactLaws ℝ) 4 _ c.toHValues (by subst hcm; exact hr) (by decide) 1 _ hh.data
    (fun k h _ _ => by positivity)
  exact ⟨c, q, hc, h1, h2 (1 / 1000) 0 1 (le_refl _) (by show (0 : ℝ) < 1; norm_num) (le_refl _) 10
    (by norm_num [FloatP.toK]) 11 (by norm_num) PState.empty⟩

end Lp.C101
