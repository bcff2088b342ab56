import Verif.Proofs.ResolutionS2
import Verif.Proofs.SpaceNear
import Verif.Proofs.SearchShift
import Verif.Spec.Float
import Verif.Props.C73
import Verif.Props.C03

/-!
# C82 — the resolution of space does not matter: dividing every leaf into `c` equal leaves keeps every loss, adds the same
amount to the gain of every partition, and leaves the best partitions as they are

`finerTree c leaves parents` (`Spec/Space.lean`) is the hierarchy in which every leaf has become a group of `c` leaves; node `h`
has become node `leaves*c + h`.  `v'` holds the values of `v`, each divided equally among the pieces of its leaf.
-/

namespace Lp.C82
open Spec
variable {F : Type} [FloatP F ℝ] {u : ℝ}

/-- The finer hierarchy is a tree that the library reads right, if the hierarchy is one. -/
theorem read (c leaves : Nat) (parents : List Int) (root : Nat) (hc : 0 < c) (t : IsTree leaves parents root)
    (hn : NearestFirst leaves parents) :
    ∃ md, mkMeta (leaves * c) (finerTree c leaves parents) = .ok md ∧ md.root = leaves * c + root ∧
      RightMeta (leaves * c) (finerTree c leaves parents) md :=
  C03.right _ _ _ (finer_tree t hc) (finer_nearestFirst hn)

/-- Hierarchical data: the qualities of the old nodes and the best partitions. -/
theorem hierarchical (fl : FloatLaws F ℝ u) (c leaves : Nat) (parents : List Int) (v v' : HValues ℝ) (hc : 0 < c)
    (hmd : RightMeta leaves parents v.md) (hmd' : RightMeta (leaves * c) (finerTree c leaves parents) v'.md)
    (hlt : leaves < parents.length) (m : Nat) (V : Nat → Nat → ℝ) (hv : HData v m leaves V)
    (hv' : HData v' m (leaves * c) (finer c V)) (h0 : ∀ k h, k < m → h < leaves → 0 ≤ V k h) :
    ∃ q q' : List (Quality ℝ),
      (HQualities.ofValues v).computeQualities = .ok ⟨some v, some q, v.md⟩ ∧
      (HQualities.ofValues v').computeQualities = .ok ⟨some v', some q', v'.md⟩ ∧
      (∀ h, h < parents.length → ∃ g l, q[h]? = some ⟨g, l⟩ ∧
        q'[leaves * c + h]? =
          some ⟨g + (∑ k ∈ Finset.range m, ∑ x ∈ leavesUnder leaves parents h, V k x) * Real.logb 2 c, l⟩) ∧
      ∀ p : F, (0 : ℝ) ≤ FloatP.toK p → (FloatP.toK p : ℝ) ≤ 1 →
        ∃ P P', hBestPartition q v.md p = .ok P ∧ hBestPartition q' v'.md p = .ok P' ∧
          P'.quality =
            ⟨P.quality.gain + (∑ k ∈ Finset.range m, ∑ x ∈ Finset.range leaves, V k x) * Real.logb 2 c, P.quality.loss⟩ ∧
          (P'.parts.map HPart.h).Perm (P.parts.map (fun x => leaves * c + x.h)) := by
  have h0' : ∀ k i, k < m → i < leaves * c → 0 ≤ finer c V k i := fun k i hk hi =>
    div_nonneg (h0 k _ hk (div_lt_leaves hi)) (by positivity)
  obtain ⟨q, e, hq⟩ := hq_object hmd hlt hv h0
  obtain ⟨q', e', hq'⟩ := hq_object hmd' (by rw [finerTree_length]; omega) hv' h0'
  refine ⟨q, q', e, e', fun h hh => ⟨_, _, hq.cell h hh, ?_⟩, fun p hp0 hp1 => ?_⟩
  · rw [hq'.cell _ (by rw [finerTree_length]; omega)]
    congr 1
    exact entQ_pieces hc (h_pieces hc h) (fun k _ s hs x _ => finer_piece hc hs)
      (fun k hk x hx => h0 k x hk (mem_leavesUnder.mp hx).1)
  · obtain ⟨P, P', L, L', g1, g2, g3, g4, g5, g6⟩ := hBest_finer hmd hlt hc hmd' h0 hq hq' p hp0 (wLoss_nonneg fl hp1)
    refine ⟨P, P', g1, g2, g5, ?_⟩
    rw [g3, g4, List.map_map, List.map_map]
    have := g6
    have e1 : L'.map (HPart.h ∘ hPartOf v'.md (fun h => entQ m (finer c V) (leavesUnder (leaves * c) (finerTree c leaves parents) h))) = L' :=
      List.map_id L'
    rw [e1]
    exact this

/-- Spatiotemporal data. -/
theorem spatiotemporal (fl : FloatLaws F ℝ u) (c leaves : Nat) (parents : List Int) (v v' : DValues ℝ) (hc : 0 < c)
    (hmd : RightMeta leaves parents v.md) (hmd' : RightMeta (leaves * c) (finerTree c leaves parents) v'.md)
    (hlt : leaves < parents.length) (m n : Nat) (hn : 0 < n) (hn' : n ≤ 65535) (hb : leaves * c * n < 2147483648)
    (V : Nat → Nat × Nat → ℝ) (hv : DData v m leaves n V) (hv' : DData v' m (leaves * c) n (finerS c V))
    (h0 : ∀ k h x, k < m → h < leaves → x < n → 0 ≤ V k (h, x)) :
    ∃ q q' : List (UTM (Quality ℝ)),
      (DQualities.ofValues v).computeQualities = .ok ⟨some v, some q, v.md⟩ ∧
      (DQualities.ofValues v').computeQualities = .ok ⟨some v', some q', v'.md⟩ ∧
      (∀ h i j, h < parents.length → i ≤ j → j < n → ∃ g l, mget q h i j = .ok ⟨g, l⟩ ∧
        mget q' (leaves * c + h) i j =
          .ok ⟨g + (∑ k ∈ Finset.range m, ∑ x ∈ leavesUnder leaves parents h ×ˢ Finset.Icc i j, V k x) * Real.logb 2 c, l⟩) ∧
      ∀ p : F, (0 : ℝ) ≤ FloatP.toK p → (FloatP.toK p : ℝ) ≤ 1 →
        ∃ P P', dBestPartition q v.md p = .ok P ∧ dBestPartition q' v'.md p = .ok P' ∧
          P'.quality =
            ⟨P.quality.gain + (∑ k ∈ Finset.range m, ∑ x ∈ Finset.range leaves ×ˢ Finset.range n, V k x) * Real.logb 2 c,
              P.quality.loss⟩ ∧
          (1 < c → (∀ h i, h < leaves → i < n → ∃ k, k < m ∧ 0 < V k (h, i)) →
            (P'.parts.map (fun x => (x.h, x.start, x.end))).Perm
              (P.parts.map (fun x => (leaves * c + x.h, x.start, x.end)))) := by
  have hb1 : leaves * n < 2147483648 := lt_of_le_of_lt (Nat.mul_le_mul_right _ (Nat.le_mul_of_pos_right leaves hc)) hb
  have h0' : ∀ k h i, k < m → h < leaves * c → i < n → 0 ≤ finerS c V k (h, i) := fun k h i hk hh hi =>
    div_nonneg (h0 k _ _ hk (div_lt_leaves hh) hi) (by positivity)
  obtain ⟨q, e, hq⟩ := dq_object hmd hlt hn' hb1 hv h0
  obtain ⟨q', e', hq'⟩ := dq_object hmd' (by rw [finerTree_length]; omega) hn' hb hv' h0'
  refine ⟨q, q', e, e', fun h i j hh hij hj => ⟨_, _, hq.get hh hij hj, ?_⟩, fun p hp0 hp1 => ?_⟩
  · rw [hq'.get (by rw [finerTree_length]; omega) hij hj]
    congr 1
    refine entQ_pieces hc (s_pieces hc ⟨h, i, j⟩) (fun k _ s hs x _ => finerS_piece hs) (fun k hk x hx => ?_)
    rw [mem_dCells] at hx
    exact h0 k x.1 x.2 hk hx.1 (lt_of_le_of_lt hx.2.2.2 hj)
  · exact dBest_finerS hmd hc hmd' hn hn' h0 hq hq' p hp0 (wLoss_nonneg fl hp1)

/-- The searches on hierarchical data: the same parameters, the qualities shifted (`C73.SameSearch`). -/
theorem hierarchicalSearch (fl : FloatLaws F ℝ u) (c leaves : Nat) (parents : List Int) (v v' : HValues ℝ) (hc : 0 < c)
    (hmd : RightMeta leaves parents v.md) (hmd' : RightMeta (leaves * c) (finerTree c leaves parents) v'.md)
    (hlt : leaves < parents.length) (m : Nat) (V : Nat → Nat → ℝ) (hv : HData v m leaves V)
    (hv' : HData v' m (leaves * c) (finer c V)) (h0 : ∀ k h, k < m → h < leaves → 0 ≤ V k h) :
    ∃ q q' : List (Quality ℝ),
      (HQualities.ofValues v).computeQualities = .ok ⟨some v, some q, v.md⟩ ∧
      (HQualities.ofValues v').computeQualities = .ok ⟨some v', some q', v'.md⟩ ∧
      ∀ (strict : Bool) (fuel : Nat) (t lo hi : F), (0 : ℝ) ≤ FloatP.toK lo → (FloatP.toK lo : ℝ) ≤ FloatP.toK hi →
        (FloatP.toK hi : ℝ) ≤ 1 → ∀ st st',
        C73.SameSearch ((∑ k ∈ Finset.range m, ∑ x ∈ Finset.range leaves, V k x) * Real.logb 2 c)
          (computeBestPartitions (hOps q v.md) strict fuel t lo hi st)
          (computeBestPartitions (hOps q' v'.md) strict fuel t lo hi st') := by
  have h0' : ∀ k i, k < m → i < leaves * c → 0 ≤ finer c V k i := fun k i hk hi =>
    div_nonneg (h0 k _ hk (div_lt_leaves hi)) (by positivity)
  have hlt' : leaves * c < (finerTree c leaves parents).length := by rw [finerTree_length]; omega
  obtain ⟨q, e, hq⟩ := hq_object hmd hlt hv h0
  obtain ⟨q', e', hq'⟩ := hq_object hmd' hlt' hv' h0'
  refine ⟨q, q', e, e', fun strict fuel t lo hi hlo hl hhi st st' => C73.sameSearch_aux ?_⟩
  refine search_corr fl (.hierarchical leaves parents v.md q _ hmd hlt hq)
    (.hierarchical _ _ v'.md q' _ hmd' hlt' hq') _ (C73.shift_aux _) ?_ strict fuel t lo hi hlo hl hhi st st'
  intro p hp0 hp1 X X' eX eX'
  obtain ⟨P, P', _, _, g1, g2, _, _, g6, _⟩ := hBest_finer hmd hlt hc hmd' h0 hq hq' p hp0 (wLoss_nonneg fl hp1)
  obtain rfl := C24.res_aux eX g1
  obtain rfl := C24.res_aux eX' g2
  exact g6

/-- The searches on spatiotemporal data. -/
theorem spatiotemporalSearch (fl : FloatLaws F ℝ u) (c leaves : Nat) (parents : List Int) (v v' : DValues ℝ) (hc : 0 < c)
    (hmd : RightMeta leaves parents v.md) (hmd' : RightMeta (leaves * c) (finerTree c leaves parents) v'.md)
    (hlt : leaves < parents.length) (m n : Nat) (hn : 0 < n) (hn' : n ≤ 65535) (hb : leaves * c * n < 2147483648)
    (V : Nat → Nat × Nat → ℝ) (hv : DData v m leaves n V) (hv' : DData v' m (leaves * c) n (finerS c V))
    (h0 : ∀ k h x, k < m → h < leaves → x < n → 0 ≤ V k (h, x)) :
    ∃ q q' : List (UTM (Quality ℝ)),
      (DQualities.ofValues v).computeQualities = .ok ⟨some v, some q, v.md⟩ ∧
      (DQualities.ofValues v').computeQualities = .ok ⟨some v', some q', v'.md⟩ ∧
      ∀ (strict : Bool) (fuel : Nat) (t lo hi : F), (0 : ℝ) ≤ FloatP.toK lo → (FloatP.toK lo : ℝ) ≤ FloatP.toK hi →
        (FloatP.toK hi : ℝ) ≤ 1 → ∀ st st',
        C73.SameSearch ((∑ k ∈ Finset.range m, ∑ x ∈ Finset.range leaves ×ˢ Finset.range n, V k x) * Real.logb 2 c)
          (computeBestPartitions (dOps q v.md) strict fuel t lo hi st)
          (computeBestPartitions (dOps q' v'.md) strict fuel t lo hi st') := by
  have hb1 : leaves * n < 2147483648 := lt_of_le_of_lt (Nat.mul_le_mul_right _ (Nat.le_mul_of_pos_right leaves hc)) hb
  have h0' : ∀ k h i, k < m → h < leaves * c → i < n → 0 ≤ finerS c V k (h, i) := fun k h i hk hh hi =>
    div_nonneg (h0 k _ _ hk (div_lt_leaves hh) hi) (by positivity)
  obtain ⟨q, e, hq⟩ := dq_object hmd hlt hn' hb1 hv h0
  obtain ⟨q', e', hq'⟩ := dq_object hmd' (by rw [finerTree_length]; omega) hn' hb hv' h0'
  refine ⟨q, q', e, e', fun strict fuel t lo hi hlo hl hhi st st' => C73.sameSearch_aux ?_⟩
  refine search_corr fl (.spatiotemporal leaves parents v.md n q _ hmd hn hn' hq)
    (.spatiotemporal _ _ v'.md n q' _ hmd' hn hn' hq') _ (C73.shift_aux _) ?_ strict fuel t lo hi hlo hl hhi st st'
  intro p hp0 hp1 X X' eX eX'
  obtain ⟨P, P', g1, g2, g6, _⟩ := dBest_finerS hmd hc hmd' hn hn' h0 hq hq' p hp0 (wLoss_nonneg fl hp1)
  obtain rfl := C24.res_aux eX g1
  obtain rfl := C24.res_aux eX' g2
  exact g6

/-- The hierarchy of C03 with 4 leaves, every leaf divided into two. -/
example : finerTree 2 4 [4, 4, 6, 6, 5, -1, 5] = [8, 8, 9, 9, 10, 10, 11, 11, 12, 12, 14, 14, 13, -1, 13] := by decide

/-- Hierarchical: the values 1, 2, 3, 4 of the leaves of that hierarchy and the halves of these values. -/
example (p : ℝ) (hp0 : 0 ≤ p) (hp1 : p ≤ 1) : ∃ c c' q q' P P',
    HValuesN1.ofVec (table1 4 (fun h => (h + 1 : ℝ))) [4, 4, 6, 6, 5, -1, 5] = .ok c ∧
    HValuesN1.ofVec (table1 8 (fun h => (((h / 2 : Nat) + 1) / 2 : ℝ))) [8, 8, 9, 9, 10, 10, 11, 11, 12, 12, 14, 14, 13, -1, 13] = .ok c' ∧
    (HQualities.ofValues c.toHValues).computeQualities = .ok ⟨some c.toHValues, some q, c.md⟩ ∧
    (HQualities.ofValues c'.toHValues).computeQualities = .ok ⟨some c'.toHValues, some q', c'.md⟩ ∧
    hBestPartition (F := ℝ) q c.md p = .ok P ∧ hBestPartition (F := ℝ) q' c'.md p = .ok P' ∧
    P'.quality = ⟨P.quality.gain + 10, P.quality.loss⟩ ∧
    (P'.parts.map HPart.h).Perm (P.parts.map (fun x => 8 + x.h)) := by
  obtain ⟨md, hm, _, hr⟩ := C03.right 4 [4, 4, 6, 6, 5, -1, 5] 5 C03.sevenTree C03.sevenNearest
  obtain ⟨md', hm', _, hr'⟩ := read 2 4 [4, 4, 6, 6, 5, -1, 5] 5 (by norm_num) C03.sevenTree C03.sevenNearest
  obtain ⟨c, hc, hcm⟩ : ∃ c : HValuesN1 ℝ, HValuesN1.ofVec (table1 4 (fun h => (h + 1 : ℝ))) [4, 4, 6, 6, 5, -1, 5] = .ok c ∧
      c.md = md := by
    unfold HValuesN1.ofVec
    rw [SIZE1_table1, hm]
    exact ⟨_, rfl, rfl⟩
  obtain ⟨c', hc', hcm'⟩ : ∃ c : HValuesN1 ℝ, HValuesN1.ofVec (table1 8 (fun h => (((h / 2 : Nat) + 1) / 2 : ℝ)))
      [8, 8, 9, 9, 10, 10, 11, 11, 12, 12, 14, 14, 13, -1, 13] = .ok c ∧ c.md = md' := by
    unfold HValuesN1.ofVec
    have e : mkMeta 8 [8, 8, 9, 9, 10, 10, 11, 11, 12, 12, 14, 14, 13, -1, 13] = .ok md' := hm'
    rw [SIZE1_table1, e]
    exact ⟨_, rfl, rfl⟩
  obtain ⟨_, _, hh⟩ := HValuesN1.ofVec_holds _ hc
  obtain ⟨_, _, hh'⟩ := HValuesN1.ofVec_holds _ hc'
  have hd' : HData c'.toHValues 1 (4 * 2) (finer 2 (fun _ h => (h + 1 : ℝ))) := by
    have e : finer 2 (fun _ h => (h + 1 : ℝ)) = fun _ (h : Nat) => (((h / 2 : Nat) + 1) / 2 : ℝ) := by
      funext k x; simp [finer]
    rw [e]
    exact hh'.data
  obtain ⟨q, q', h1, h2, _, h3⟩ := hierarchical (F := ℝ) (exactLaws ℝ) 2 4 _ c.toHValues c'.toHValues (by norm_num)
    (by subst hcm; exact hr) (by subst hcm'; exact hr') (by decide) 1 _ hh.data hd' (fun k h _ _ => by positivity)
  obtain ⟨P, P', e1, e2, e3, e4⟩ := h3 p hp0 hp1
  refine ⟨c, c', q, q', P, P', hc, hc', h1, h2, e1, e2, ?_, e4⟩
  rw [e3]
  have : Real.logb 2 ((2 : Nat) : ℝ) = 1 := by norm_num
  rw [this]
  norm_num [Finset.sum_range_succ]

/-- Spatiotemporal: the same hierarchies with three slices, values `h + i + 1`. -/
example (p : ℝ) (hp0 : 0 ≤ p) (hp1 : p ≤ 1) : ∃ c c' q q' P P',
    DValuesN2.ofVec (table2 4 3 (fun x => (x.1 + x.2 + 1 : ℝ))) [4, 4, 6, 6, 5, -1, 5] = .ok c ∧
    DValuesN2.ofVec (table2 8 3 (fun x => (((x.1 / 2 : Nat) + x.2 + 1) / 2 : ℝ)))
      [8, 8, 9, 9, 10, 10, 11, 11, 12, 12, 14, 14, 13, -1, 13] = .ok c' ∧
    (DQualities.ofValues c.toDValues).computeQualities = .ok ⟨some c.toDValues, some q, c.md⟩ ∧
    (DQualities.ofValues c'.toDValues).computeQualities = .ok ⟨some c'.toDValues, some q', c'.md⟩ ∧
    dBestPartition (F := ℝ) q c.md p = .ok P ∧ dBestPartition (F := ℝ) q' c'.md p = .ok P' ∧
    P'.quality.loss = P.quality.loss ∧
    (P'.parts.map (fun x => (x.h, x.start, x.end))).Perm (P.parts.map (fun x => (8 + x.h, x.start, x.end))) := by
  obtain ⟨md, hm, _, hr⟩ := C03.right 4 [4, 4, 6, 6, 5, -1, 5] 5 C03.sevenTree C03.sevenNearest
  obtain ⟨md', hm', _, hr'⟩ := read 2 4 [4, 4, 6, 6, 5, -1, 5] 5 (by norm_num) C03.sevenTree C03.sevenNearest
  obtain ⟨c, hc, hcm⟩ : ∃ c : DValuesN2 ℝ, DValuesN2.ofVec (table2 4 3 (fun x => (x.1 + x.2 + 1 : ℝ)))
      [4, 4, 6, 6, 5, -1, 5] = .ok c ∧ c.md = md := by
    unfold DValuesN2.ofVec
    rw [SIZE1_table2, hm, SIZE2_table2 (by norm_num)]
    exact ⟨_, rfl, rfl⟩
  obtain ⟨c', hc', hcm'⟩ : ∃ c : DValuesN2 ℝ, DValuesN2.ofVec (table2 8 3 (fun x => (((x.1 / 2 : Nat) + x.2 + 1) / 2 : ℝ)))
      [8, 8, 9, 9, 10, 10, 11, 11, 12, 12, 14, 14, 13, -1, 13] = .ok c ∧ c.md = md' := by
    unfold DValuesN2.ofVec
    have e : mkMeta 8 [8, 8, 9, 9, 10, 10, 11, 11, 12, 12, 14, 14, 13, -1, 13] = .ok md' := hm'
    rw [SIZE1_table2, e, SIZE2_table2 (by norm_num)]
    exact ⟨_, rfl, rfl⟩
  obtain ⟨_, _, hh⟩ := DValuesN2.ofVec_holds (by norm_num) _ hc
  obtain ⟨_, _, hh'⟩ := DValuesN2.ofVec_holds (by norm_num) _ hc'
  have hd' : DData c'.toDValues 1 (4 * 2) 3 (finerS 2 (fun _ x => (x.1 + x.2 + 1 : ℝ))) := by
    have e : finerS 2 (fun _ x => (x.1 + x.2 + 1 : ℝ)) = fun _ (x : Nat × Nat) => (((x.1 / 2 : Nat) + x.2 + 1) / 2 : ℝ) := by
      funext k x; simp [finerS]
    rw [e]
    exact hh'.data
  obtain ⟨q, q', h1, h2, _, h3⟩ := spatiotemporal (F := ℝ) (exactLaws ℝ) 2 4 _ c.toDValues c'.toDValues (by norm_num)
    (by subst hcm; exact hr) (by subst hcm'; exact hr') (by decide) 1 3 (by norm_num) (by norm_num) (by norm_num) _ hh.data hd'
    (fun k h x _ _ _ => by positivity)
  obtain ⟨P, P', e1, e2, e3, e4⟩ := h3 p hp0 hp1
  exact ⟨c, c', q, q', P, P', hc, hc', h1, h2, e1, e2, by rw [e3],
    e4 (by norm_num) (fun h i _ _ => ⟨0, one_pos, by positivity⟩)⟩

end Lp.C82
