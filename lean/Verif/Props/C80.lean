import Verif.Props.C81
import Verif.Proofs.Norm

/-!
# C80 — more levels in the hierarchy never lower the optimum

If every group of leaves that is a node of one hierarchy is also a node of another one, then, at every parameter, the best
partition under the second hierarchy is worth at least as much as the best one under the first; it can be worth strictly more.
Data of any sign; exact arithmetic of the qualities, any rounding of the weights `p` and `1-p`.
-/

namespace Lp.C80
open Spec
open scoped BigOperators
variable {F : Type} [FloatP F ℝ]

/-- Hierarchical analysis of the same data under two hierarchies. -/
theorem hierarchical (leaves : Nat) (parents parents' : List Int) (more : MoreLevels leaves parents parents')
    (v v' : HValues ℝ) (hmd : RightMeta leaves parents v.md) (hlt : leaves < parents.length)
    (hmd' : RightMeta leaves parents' v'.md) (hlt' : leaves < parents'.length)
    (m : Nat) (V : Nat → Nat → ℝ) (hv : HData v m leaves V) (hv' : HData v' m leaves V) :
    ∃ q q' : List (Quality ℝ), (HQualities.ofValues v).computeQualities = .ok ⟨some v, some q, v.md⟩ ∧
      (HQualities.ofValues v').computeQualities = .ok ⟨some v', some q', v'.md⟩ ∧
      ∀ p : F, ∃ P P' : HPartition F ℝ, hBestPartition q v.md p = .ok P ∧ hBestPartition q' v'.md p = .ok P' ∧
        worth p P.quality ≤ worth p P'.quality := by
  obtain ⟨q', qs, h1, h2, h3⟩ := C81.hierarchical (F := F) leaves parents' 1 _ _ _ (MoreLevels.made more) v' (fun _ => v)
    hmd' hlt' (fun _ _ => hmd) (fun _ _ => hlt) m V hv' (fun _ _ => hv)
  refine ⟨qs 0, q', h2 0 (by omega), h1, fun p => ?_⟩
  obtain ⟨P', Ps, a1, a2, a3⟩ := h3 p
  exact ⟨Ps 0, P', a2 0 (by omega), a1, by simpa using a3⟩

/-- Spatiotemporal analysis of the same data under two hierarchies. -/
theorem spatiotemporal (leaves : Nat) (parents parents' : List Int) (more : MoreLevels leaves parents parents')
    (v v' : DValues ℝ) (hmd : RightMeta leaves parents v.md) (hlt : leaves < parents.length)
    (hmd' : RightMeta leaves parents' v'.md) (hlt' : leaves < parents'.length)
    (m n : Nat) (hn0 : 0 < n) (hn : n ≤ 65535) (hb : leaves * n < 2147483648) (V : Nat → Nat × Nat → ℝ)
    (hv : DData v m leaves n V) (hv' : DData v' m leaves n V) :
    ∃ q q' : List (UTM (Quality ℝ)), (DQualities.ofValues v).computeQualities = .ok ⟨some v, some q, v.md⟩ ∧
      (DQualities.ofValues v').computeQualities = .ok ⟨some v', some q', v'.md⟩ ∧
      ∀ p : F, ∃ P P' : DPartition F ℝ, dBestPartition q v.md p = .ok P ∧ dBestPartition q' v'.md p = .ok P' ∧
        worth p P.quality ≤ worth p P'.quality := by
  obtain ⟨q', qs, h1, h2, h3⟩ := C81.spatiotemporal (F := F) leaves parents' 1 _ _ _ (MoreLevels.made more) v' (fun _ => v)
    hmd' hlt' (fun _ _ => hmd) (fun _ _ => hlt) m n hn0 hn hb (fun _ _ => hb) V hv' (fun _ _ => hv)
  refine ⟨qs 0, q', h2 0 (by omega), h1, fun p => ?_⟩
  obtain ⟨P', Ps, a1, a2, a3⟩ := h3 p
  exact ⟨Ps 0, P', a2 0 (by omega), a1, by simpa using a3⟩

/-- The same with normalised qualities, for hierarchies whose roots have the highest node numbers: the totals are the same. -/
theorem hierarchicalNormalized (leaves : Nat) (parents parents' : List Int) (more : MoreLevels leaves parents parents')
    (v v' : HValues ℝ) (hmd : RightMeta leaves parents v.md) (hlt : leaves < parents.length)
    (hroot : v.md.root = parents.length - 1) (hmd' : RightMeta leaves parents' v'.md) (hlt' : leaves < parents'.length)
    (hroot' : v'.md.root = parents'.length - 1)
    (m : Nat) (V : Nat → Nat → ℝ) (hv : HData v m leaves V) (hv' : HData v' m leaves V)
    (_h0 : ∀ k h, k < m → h < leaves → 0 ≤ V k h)
    (_hg : gainSeries m (Finset.range leaves) V ≠ 0) (_hl : lossSeries m (Finset.range leaves) V ≠ 0) :
    ∃ q q' : List (Quality ℝ),
      ((HQualities.ofValues v).computeQualities >>= HQualities.normalize) = .ok ⟨some v, some q, v.md⟩ ∧
      ((HQualities.ofValues v').computeQualities >>= HQualities.normalize) = .ok ⟨some v', some q', v'.md⟩ ∧
      ∀ p : F, ∃ P P' : HPartition F ℝ, hBestPartition q v.md p = .ok P ∧ hBestPartition q' v'.md p = .ok P' ∧
        worth p P.quality ≤ worth p P'.quality := by
  have key : ∀ (parents : List Int) (v : HValues ℝ), RightMeta leaves parents v.md → leaves < parents.length →
      v.md.root = parents.length - 1 → HData v m leaves V → ∃ q,
        ((HQualities.ofValues v).computeQualities >>= HQualities.normalize) = .ok ⟨some v, some q, v.md⟩ ∧
        VRep q parents.length (fun h => (anyQ m V (leavesUnder leaves parents h)).div (anyQ m V (Finset.range leaves))) := by
    intro parents v hmd hlt hroot hv
    obtain ⟨q, e, h⟩ := hq_objectAny hmd hlt hv
    obtain ⟨q', e', h'⟩ := hqNormalize_spec h hmd.tree.rootLt
    refine ⟨q', ?_, h'.congr fun x hx => ?_⟩
    · rw [e]; exact hNormalize_object e'
    · unfold nDiv
      rw [if_neg (by omega), leavesUnder_root hmd.tree]
  obtain ⟨q, e, h⟩ := key parents v hmd hlt hroot hv
  obtain ⟨q', e', h'⟩ := key parents' v' hmd' hlt' hroot' hv'
  refine ⟨q, q', e, e', fun p => ?_⟩
  obtain ⟨P', Ps, a1, a2, a3⟩ := C81.hier_aux (MoreLevels.made more) hmd' hlt' (mds := fun _ => v.md) (fun _ _ => hmd)
    (fun _ _ => hlt) q' (fun _ => q) _ (fun _ => _) h' (fun _ _ => h)
    (fun i x hi hx => by rw [glue_quality (MoreLevels.made more) hi hx V]) p
  exact ⟨Ps 0, P', a2 0 (by omega), a1, by simpa using a3⟩

/-- The same with normalised spatiotemporal qualities. -/
theorem spatiotemporalNormalized (leaves : Nat) (parents parents' : List Int) (more : MoreLevels leaves parents parents')
    (v v' : DValues ℝ) (hmd : RightMeta leaves parents v.md) (hlt : leaves < parents.length)
    (hroot : v.md.root = parents.length - 1) (hmd' : RightMeta leaves parents' v'.md) (hlt' : leaves < parents'.length)
    (hroot' : v'.md.root = parents'.length - 1)
    (m n : Nat) (hn0 : 0 < n) (hn : n ≤ 65535) (hb : leaves * n < 2147483648) (V : Nat → Nat × Nat → ℝ)
    (hv : DData v m leaves n V) (hv' : DData v' m leaves n V)
    (_h0 : ∀ k h x, k < m → h < leaves → x < n → 0 ≤ V k (h, x))
    (_hg : gainSeries m (Finset.range leaves ×ˢ Finset.Icc 0 (n - 1)) V ≠ 0)
    (_hl : lossSeries m (Finset.range leaves ×ˢ Finset.Icc 0 (n - 1)) V ≠ 0) :
    ∃ q q' : List (UTM (Quality ℝ)),
      ((DQualities.ofValues v).computeQualities >>= DQualities.normalize) = .ok ⟨some v, some q, v.md⟩ ∧
      ((DQualities.ofValues v').computeQualities >>= DQualities.normalize) = .ok ⟨some v', some q', v'.md⟩ ∧
      ∀ p : F, ∃ P P' : DPartition F ℝ, dBestPartition q v.md p = .ok P ∧ dBestPartition q' v'.md p = .ok P' ∧
        worth p P.quality ≤ worth p P'.quality := by
  have key : ∀ (parents : List Int) (v : DValues ℝ), RightMeta leaves parents v.md → leaves < parents.length →
      v.md.root = parents.length - 1 → DData v m leaves n V → ∃ q,
        ((DQualities.ofValues v).computeQualities >>= DQualities.normalize) = .ok ⟨some v, some q, v.md⟩ ∧
        MRep q parents.length n (fun h i j => (anyQ m V (dCells leaves parents ⟨h, i, j⟩)).div
          (anyQ m V (Finset.range leaves ×ˢ Finset.Icc 0 (n - 1)))) := by
    intro parents v hmd hlt hroot hv
    obtain ⟨q, e, h⟩ := dq_objectAny hmd hlt hn hb hv
    obtain ⟨q', e', h'⟩ := dqNormalize_spec h hmd.tree.rootLt hmd.hsize hn0 hn
    refine ⟨q', ?_, h'.congr fun x i j hx _ _ => ?_⟩
    · rw [e]; exact dNormalize_object hv.osize hn0 e'
    · unfold nDiv
      rw [if_neg (by omega)]
      unfold dCells
      rw [leavesUnder_root hmd.tree]
  obtain ⟨q, e, h⟩ := key parents v hmd hlt hroot hv
  obtain ⟨q', e', h'⟩ := key parents' v' hmd' hlt' hroot' hv'
  refine ⟨q, q', e, e', fun p => ?_⟩
  obtain ⟨P', Ps, a1, a2, a3⟩ := C81.spat_aux (MoreLevels.made more) hmd' (mds := fun _ => v.md) (fun _ _ => hmd)
    hn0 hn q' (fun _ => q)
    (fun r => (anyQ m V (dCells leaves parents' r)).div (anyQ m V (Finset.range leaves ×ˢ Finset.Icc 0 (n - 1))))
    (fun _ r => (anyQ m V (dCells leaves parents r)).div (anyQ m V (Finset.range leaves ×ˢ Finset.Icc 0 (n - 1)))) h' (fun _ _ => h)
    (fun i x hi hx => by rw [glue_qualityD (MoreLevels.made more) hi hx V]) p
  exact ⟨Ps 0, P', a2 0 (by omega), a1, by simpa using a3⟩

theorem flatTree_aux : IsTree 4 [4, 4, 4, 4, -1] 4 :=
  .ofCheck (fun h => if h < 4 then 1 else 0) (by decide) (by decide) (by decide) (by decide)

theorem more_aux : MoreLevels 4 [4, 4, 4, 4, -1] [4, 4, 5, 5, 6, 6, -1] := by
  intro h hh
  have hh : h < 5 := hh
  have u4 : ∀ a l : Nat, l < 4 → (Under [4, 4, 5, 5, 6, 6, -1] a l ↔ upCheck [4, 4, 5, 5, 6, 6, -1] a 2 l = true) := fun a l hl =>
    under_check C81.fourTree_aux (fun h => if h < 4 then 2 else if h < 6 then 1 else 0) 2 (by decide) (by decide)
      (by show l < 7; omega)
  have u2 : ∀ a l : Nat, l < 4 → (Under [4, 4, 4, 4, -1] a l ↔ upCheck [4, 4, 4, 4, -1] a 2 l = true) := fun a l hl =>
    under_check flatTree_aux (fun h => if h < 4 then 1 else 0) 2 (by decide) (by decide) (by show l < 5; omega)
  have key : ∀ h < 5, ∀ l < 4, (upCheck [4, 4, 5, 5, 6, 6, -1] (if h < 4 then h else 6) 2 l = true ↔
      upCheck [4, 4, 4, 4, -1] h 2 l = true) := by decide
  refine ⟨if h < 4 then h else 6, by show _ < 7; split <;> omega, fun l hl => ?_⟩
  rw [u4 _ l hl, key h hh l hl, u2 h l hl]

/-- The values 0, 0, 1, 1 of four leaves at parameter `1/2`: with the root as the only group no partition is worth more than 0;
with the pairs {0,1} and {2,3} as groups the best partition is worth at least 1. -/
theorem strict : ∃ (c c' : HValuesN1 ℝ) (q q' : List (Quality ℝ)) (P P' : HPartition ℝ ℝ),
    HValuesN1.ofVec [0, 0, 1, 1] [4, 4, 4, 4, -1] = .ok c ∧ HValuesN1.ofVec [0, 0, 1, 1] [4, 4, 5, 5, 6, 6, -1] = .ok c' ∧
    (HQualities.ofValues c.toHValues).computeQualities = .ok ⟨some c.toHValues, some q, c.md⟩ ∧
    (HQualities.ofValues c'.toHValues).computeQualities = .ok ⟨some c'.toHValues, some q', c'.md⟩ ∧
    hBestPartition q c.md (1 / 2 : ℝ) = .ok P ∧ hBestPartition q' c'.md (1 / 2 : ℝ) = .ok P' ∧
    worth (1 / 2 : ℝ) P.quality ≤ 0 ∧ 1 ≤ worth (1 / 2 : ℝ) P'.quality := by
  obtain ⟨md', hm', hr'⟩ := C57.meta_aux
  obtain ⟨md, hm, _, hr⟩ := C03.right 4 [4, 4, 4, 4, -1] 4 flatTree_aux (balanced_nearestFirst flatTree_aux
    (.ofCheck (fun h => if h < 4 then 0 else 1) (by decide) (by decide) (by decide)))
  let f : Nat → ℝ := fun i => if i < 2 then 0 else 1
  have h1 : (⟨1, md, table1 4 f⟩ : HValuesN1 ℝ).Holds 4 md f := ⟨rfl, rfl, rfl⟩
  have h2 : (⟨1, md', table1 4 f⟩ : HValuesN1 ℝ).Holds 4 md' f := ⟨rfl, rfl, rfl⟩
  have ht : ([0, 0, 1, 1] : List ℝ) = table1 4 f := by simp [table1, List.range_succ, f]
  obtain ⟨q, e1, e2⟩ := hq_objectAny (v := HValuesN1.toHValues ⟨1, md, table1 4 f⟩) hr (by decide) h1.data
  obtain ⟨q', e1', e2'⟩ := hq_objectAny (v := HValuesN1.toHValues ⟨1, md', table1 4 f⟩) hr' (by decide) h2.data
  obtain ⟨P, L, a1, a2, _, a4, _⟩ := C19.optimal 4 _ md hr (by decide) q _ e2 (1 / 2 : ℝ)
  obtain ⟨P', b1, b2⟩ := C19.optimal_exact 4 _ md' hr' (by decide) q' _ e2' (1 / 2 : ℝ)
  have l1 : ∀ a, leavesUnder 4 [4, 4, 4, 4, -1] a =
      (Finset.range 4).filter (fun l => upCheck [4, 4, 4, 4, -1] a 2 l = true) := fun a =>
    leavesUnder_check flatTree_aux (fun h => if h < 4 then 1 else 0) 2 (by decide) (by decide) a
  have l2 : ∀ a, leavesUnder 4 [4, 4, 5, 5, 6, 6, -1] a =
      (Finset.range 4).filter (fun l => upCheck [4, 4, 5, 5, 6, 6, -1] a 2 l = true) := fun a =>
    leavesUnder_check C81.fourTree_aux (fun h => if h < 4 then 2 else if h < 6 then 1 else 0) 2 (by decide) (by decide) a
  have hlog4 : Real.logb 2 4 = 2 := by
    rw [show (4 : ℝ) = 2 ^ (2 : ℝ) by norm_num, Real.logb_rpow (by norm_num) (by norm_num)]
  refine ⟨_, _, q, q', P, P', ?_, ?_, e1, e1', a1, b1, ?_, ?_⟩
  · unfold HValuesN1.ofVec
    rw [ht, SIZE1_table1, hm]
    rfl
  · unfold HValuesN1.ofVec
    rw [ht, SIZE1_table1, hm']
    rfl
  · unfold worth
    rw [a4]
    have hnode : ∀ h ∈ L, (anyQ 1 (fun _ => f) (leavesUnder 4 [4, 4, 4, 4, -1] h)).gain ≤
        (anyQ 1 (fun _ => f) (leavesUnder 4 [4, 4, 4, 4, -1] h)).loss := by
      intro h hh
      have hh : h < 5 := a2.1 h hh
      rw [l1]
      have s0 : (Finset.range 4).filter (fun l => upCheck [4, 4, 4, 4, -1] 0 2 l = true) = {0} := by decide
      have s1 : (Finset.range 4).filter (fun l => upCheck [4, 4, 4, 4, -1] 1 2 l = true) = {1} := by decide
      have s2 : (Finset.range 4).filter (fun l => upCheck [4, 4, 4, 4, -1] 2 2 l = true) = {2} := by decide
      have s3 : (Finset.range 4).filter (fun l => upCheck [4, 4, 4, 4, -1] 3 2 l = true) = {3} := by decide
      have s4 : (Finset.range 4).filter (fun l => upCheck [4, 4, 4, 4, -1] 4 2 l = true) = {0, 1, 2, 3} := by decide
      match h, hh with
      | 0, _ => rw [s0]; simp [anyQ, gainAny, lossAny, xlog2, glog2, f]
      | 1, _ => rw [s1]; simp [anyQ, gainAny, lossAny, xlog2, glog2, f]
      | 2, _ => rw [s2]; simp [anyQ, gainAny, lossAny, xlog2, glog2, f]
      | 3, _ => rw [s3]; simp [anyQ, gainAny, lossAny, xlog2, glog2, f]
      | 4, _ => rw [s4]; norm_num [anyQ, gainAny, lossAny, xlog2, glog2, f, hlog4]
    have : gainOf (fun h => anyQ 1 (fun _ => f) (leavesUnder 4 [4, 4, 4, 4, -1] h)) L ≤
        lossOf (fun h => anyQ 1 (fun _ => f) (leavesUnder 4 [4, 4, 4, 4, -1] h)) L := by
      unfold gainOf lossOf
      exact List.sum_le_sum hnode
    simp only [exact_toK, exact_oneSub]
    linarith
  · have hc : LeafCover 4 [4, 4, 5, 5, 6, 6, -1] [4, 5] := by
      constructor
      · decide
      · intro l hl
        have u4 : ∀ a l : Nat, l < 4 → (Under [4, 4, 5, 5, 6, 6, -1] a l ↔ upCheck [4, 4, 5, 5, 6, 6, -1] a 2 l = true) := fun a l hl =>
          under_check C81.fourTree_aux (fun h => if h < 4 then 2 else if h < 6 then 1 else 0) 2 (by decide) (by decide)
            (by show l < 7; omega)
        have key : ∀ l < 4, upCheck [4, 4, 5, 5, 6, 6, -1] (4 + l / 2) 2 l = true ∧
            ∀ k < 2, upCheck [4, 4, 5, 5, 6, 6, -1] (4 + k) 2 l = true → k = l / 2 := by decide
        refine ⟨l / 2, ⟨4 + l / 2, ?_, (u4 _ l hl).mpr (key l hl).1⟩, ?_⟩
        · match l, hl with
          | 0, _ => rfl
          | 1, _ => rfl
          | 2, _ => rfl
          | 3, _ => rfl
        · rintro k ⟨x, hx, hu⟩
          match k, hx with
          | 0, hx =>
            obtain rfl : 4 = x := by simpa using hx
            exact (key l hl).2 0 (by omega) ((u4 _ l hl).mp hu)
          | 1, hx =>
            obtain rfl : 5 = x := by simpa using hx
            exact (key l hl).2 1 (by omega) ((u4 _ l hl).mp hu)
          | k + 2, hx => simp at hx
    have k := b2 _ hc
    have s0 : (Finset.range 4).filter (fun l => upCheck [4, 4, 5, 5, 6, 6, -1] 4 2 l = true) = {0, 1} := by decide
    have s1 : (Finset.range 4).filter (fun l => upCheck [4, 4, 5, 5, 6, 6, -1] 5 2 l = true) = {2, 3} := by decide
    simp only [gainOf_cons, gainOf_nil, lossOf_cons, lossOf_nil, l2, s0, s1] at k
    unfold worth
    refine le_trans ?_ k
    norm_num [anyQ, gainAny, lossAny, xlog2, glog2, f]

/-- The two hierarchies of `strict`, any data, any parameter. -/
example (f : Nat → ℝ) : ∃ (c c' : HValuesN1 ℝ) (q q' : List (Quality ℝ)),
    HValuesN1.ofVec (table1 4 f) [4, 4, 4, 4, -1] = .ok c ∧ HValuesN1.ofVec (table1 4 f) [4, 4, 5, 5, 6, 6, -1] = .ok c' ∧
    (HQualities.ofValues c.toHValues).computeQualities = .ok ⟨some c.toHValues, some q, c.md⟩ ∧
    (HQualities.ofValues c'.toHValues).computeQualities = .ok ⟨some c'.toHValues, some q', c'.md⟩ ∧
    ∀ p : ℝ, ∃ P P' : HPartition ℝ ℝ, hBestPartition q c.md p = .ok P ∧ hBestPartition q' c'.md p = .ok P' ∧
      worth p P.quality ≤ worth p P'.quality := by
  obtain ⟨md', hm', hr'⟩ := C57.meta_aux
  obtain ⟨md, hm, _, hr⟩ := C03.right 4 [4, 4, 4, 4, -1] 4 flatTree_aux (balanced_nearestFirst flatTree_aux
    (.ofCheck (fun h => if h < 4 then 0 else 1) (by decide) (by decide) (by decide)))
  have h1 : (⟨1, md, table1 4 f⟩ : HValuesN1 ℝ).Holds 4 md f := ⟨rfl, rfl, rfl⟩
  have h2 : (⟨1, md', table1 4 f⟩ : HValuesN1 ℝ).Holds 4 md' f := ⟨rfl, rfl, rfl⟩
  obtain ⟨q, q', e1, e2, e3⟩ := hierarchical (F := ℝ) 4 _ _ more_aux (HValuesN1.toHValues ⟨1, md, table1 4 f⟩)
    (HValuesN1.toHValues ⟨1, md', table1 4 f⟩) hr (by decide) hr' (by decide) 1 _ h1.data h2.data
  refine ⟨_, _, q, q', ?_, ?_, e1, e2, e3⟩
  · unfold HValuesN1.ofVec
    rw [SIZE1_table1, hm]
    rfl
  · unfold HValuesN1.ofVec
    rw [SIZE1_table1, hm']
    rfl

end Lp.C80
