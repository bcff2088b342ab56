import Verif.Proofs.ResolutionD
import Verif.Proofs.SearchShift
import Verif.Spec.Float
import Verif.Props.C14
import Verif.Props.C47
import Verif.Proofs.Samples

/-!
# C73 — the resolution of time does not matter: cutting every slice into `c` equal slices keeps every loss, adds the
same amount to the gain of every partition, and cuts every part of every best partition

`v'` holds the values of `v` with every slice cut into `c` slices, every value divided by `c` (`Spec.finer`).  `p` is a
parameter of `[0,1]`, in any float arithmetic with the stated laws.
-/

namespace Lp.C73
open Spec
variable {F : Type} [FloatP F ℝ] {u : ℝ}

/-- Ordered data. -/
theorem ordered (fl : FloatLaws F ℝ u) (v v' : OValues ℝ) (m n c : Nat) (V : Nat → Nat → ℝ) (hc : 0 < c) (hn : 0 < n)
    (hnc : n * c ≤ 65535) (hv : OData v m n V) (hv' : OData v' m (n * c) (finer c V))
    (h0 : ∀ k i, k < m → i < n → 0 ≤ V k i) :
    ∃ q q' : UTM (Quality ℝ),
      (OQualities.ofValues v).computeQualities = .ok ⟨some v, some q⟩ ∧
      (OQualities.ofValues v').computeQualities = .ok ⟨some v', some q'⟩ ∧
      (∀ i j, i ≤ j → j < n → ∃ g l, q.get i j = .ok ⟨g, l⟩ ∧
        q'.get (c * i) (c * j + (c - 1)) =
          .ok ⟨g + (∑ k ∈ Finset.range m, ∑ x ∈ Finset.Icc i j, V k x) * Real.logb 2 c, l⟩) ∧
      ∀ p : F, (0 : ℝ) ≤ FloatP.toK p → (FloatP.toK p : ℝ) ≤ 1 →
        ∃ P P', oBestPartition q p = .ok P ∧ oBestPartition q' p = .ok P' ∧
          P'.quality =
            ⟨P.quality.gain + (∑ k ∈ Finset.range m, ∑ x ∈ Finset.range n, V k x) * Real.logb 2 c, P.quality.loss⟩ ∧
          ((∀ i, i < n → ∃ k, k < m ∧ 0 < V k i) →
            P'.parts.map (fun x => (x.start, x.end)) =
              P.parts.map (fun x => ((c : Int) * x.start, (c : Int) * x.end + ((c : Int) - 1)))) := by
  have hn1 : n ≤ 65535 := le_trans (Nat.le_mul_of_pos_right n hc) hnc
  have h0' : ∀ k i, k < m → i < n * c → 0 ≤ finer c V k i := fun k i hk hi =>
    div_nonneg (h0 k _ hk (Nat.div_lt_of_lt_mul (by rwa [Nat.mul_comm] at hi))) (by positivity)
  obtain ⟨q, e, hq⟩ := oq_object hv hn1 h0
  obtain ⟨q', e', hq'⟩ := oq_object hv' hnc h0'
  refine ⟨q, q', e, e', fun i j hij hj => ⟨_, _, hq.get hij hj, ?_⟩, fun p hp0 hp1 => ?_⟩
  · have h1 := Nat.mul_le_mul_left c hij
    have h2 := Nat.mul_le_mul_left c (show j + 1 ≤ n from hj)
    rw [Nat.mul_add, Nat.mul_comm c n] at h2
    rw [hq'.get (by omega) (by omega)]
    congr 1
    exact entQ_pieces hc (o_pieces hc (i, j)) (fun k _ s hs x _ => finer_piece hc hs) (nonneg_oCells h0 hj)
  · obtain ⟨P, P', L, L', g1, g2, g3, g4, _, g6, g7⟩ := oBest_finer hc hn h0 hq hq' p hp0 (wLoss_nonneg fl hp1)
    refine ⟨P, P', g1, g2, g6, fun hpos => ?_⟩
    rw [g4, g7 hpos, g3, List.map_map, List.map_map, List.map_map]
    refine List.map_congr_left (fun I _ => ?_)
    show ((((c * I.1 : Nat) : Int)), ((c * I.2 + (c - 1) : Nat) : Int)) = _
    rw [Nat.cast_add, Nat.cast_sub hc, Nat.cast_mul, Nat.cast_mul]
    rfl

/-- Spatiotemporal data. -/
theorem spatiotemporal (fl : FloatLaws F ℝ u) (leaves : Nat) (parents : List Int) (v v' : DValues ℝ)
    (hmd : RightMeta leaves parents v.md) (hmd' : v'.md = v.md) (hlt : leaves < parents.length) (m n c : Nat)
    (V : Nat → Nat × Nat → ℝ) (hc : 0 < c) (hn : 0 < n) (hnc : n * c ≤ 65535) (hb : leaves * (n * c) < 2147483648)
    (hv : DData v m leaves n V) (hv' : DData v' m leaves (n * c) (finerD c V))
    (h0 : ∀ k h x, k < m → h < leaves → x < n → 0 ≤ V k (h, x)) :
    ∃ q q' : List (UTM (Quality ℝ)),
      (DQualities.ofValues v).computeQualities = .ok ⟨some v, some q, v.md⟩ ∧
      (DQualities.ofValues v').computeQualities = .ok ⟨some v', some q', v.md⟩ ∧
      (∀ h i j, h < parents.length → i ≤ j → j < n → ∃ g l, mget q h i j = .ok ⟨g, l⟩ ∧
        mget q' h (c * i) (c * j + (c - 1)) =
          .ok ⟨g + (∑ k ∈ Finset.range m, ∑ x ∈ leavesUnder leaves parents h ×ˢ Finset.Icc i j, V k x) * Real.logb 2 c, l⟩) ∧
      ∀ p : F, (0 : ℝ) ≤ FloatP.toK p → (FloatP.toK p : ℝ) ≤ 1 →
        ∃ P P', dBestPartition q v.md p = .ok P ∧ dBestPartition q' v.md p = .ok P' ∧
          P'.quality =
            ⟨P.quality.gain + (∑ k ∈ Finset.range m, ∑ x ∈ Finset.range leaves ×ˢ Finset.range n, V k x) * Real.logb 2 c,
              P.quality.loss⟩ ∧
          ((∀ h i, h < leaves → i < n → ∃ k, k < m ∧ 0 < V k (h, i)) →
            P'.parts.map (fun x => (x.h, x.hsize, x.start, x.end)) =
              P.parts.map (fun x => (x.h, x.hsize, c * x.start, c * x.end + (c - 1)))) := by
  have hn1 : n ≤ 65535 := le_trans (Nat.le_mul_of_pos_right n hc) hnc
  have hb1 : leaves * n < 2147483648 := lt_of_le_of_lt (Nat.mul_le_mul_left _ (Nat.le_mul_of_pos_right n hc)) hb
  have h0' : ∀ k h i, k < m → h < leaves → i < n * c → 0 ≤ finerD c V k (h, i) := fun k h i hk hh hi =>
    div_nonneg (h0 k h _ hk hh (Nat.div_lt_of_lt_mul (by rwa [Nat.mul_comm] at hi))) (by positivity)
  obtain ⟨q, e, hq⟩ := dq_object hmd hlt hn1 hb1 hv h0
  obtain ⟨q', e', hq'⟩ := dq_object (by rw [hmd']; exact hmd) hlt hnc hb hv' h0'
  rw [hmd'] at e'
  refine ⟨q, q', e, e', fun h i j hh hij hj => ⟨_, _, hq.get hh hij hj, ?_⟩, fun p hp0 hp1 => ?_⟩
  · have h1 := Nat.mul_le_mul_left c hij
    have h2 := Nat.mul_le_mul_left c (show j + 1 ≤ n from hj)
    rw [Nat.mul_add, Nat.mul_comm c n] at h2
    rw [hq'.get hh (by omega) (by omega)]
    congr 1
    refine entQ_pieces hc (d_pieces hc ⟨h, i, j⟩) (fun k _ s hs x _ => finerD_piece hc hs) (fun k hk x hx => ?_)
    simp only [dCells, leavesUnder, Finset.mem_product, Finset.mem_Icc, Finset.mem_filter, Finset.mem_range] at hx
    exact h0 k x.1 x.2 hk hx.1.1 (by omega)
  · obtain ⟨P, P', L, L', g1, g2, g3, g4, g6, g7⟩ := dBest_finer hmd hc hn hnc h0 hq hq' p hp0 (wLoss_nonneg fl hp1)
    refine ⟨P, P', g1, g2, g6, fun hpos => ?_⟩
    rw [g4, g7 hpos, g3, List.map_map, List.map_map, List.map_map]
    rfl

/-- Two searches end in the same fault, or find the same parameters, the qualities for them being `⟨g + s, l⟩` where those of
the first search are `⟨g, l⟩`. -/
def SameSearch {P P' T T' : Type} (s : ℝ) (a : Res (PState F ℝ P T)) (b : Res (PState F ℝ P' T')) : Prop :=
  (∀ e, a = .error e ↔ b = .error e) ∧
  ∀ x y, a = .ok x → b = .ok y → y.pList = x.pList ∧
    y.qualityList = x.qualityList.map (fun e => (e.1, ⟨e.2.gain + s, e.2.loss⟩))

theorem sameSearch_aux {P P' T T' : Type} {s : ℝ} {a : Res (PState F ℝ P T)} {b : Res (PState F ℝ P' T')}
    (h : RelRes (fun x y => y.pList = x.pList ∧
      y.qualityList = x.qualityList.map (fun e => (e.1, (⟨e.2.gain + s, e.2.loss⟩ : Quality ℝ)))) a b) : SameSearch s a b := by
  cases a <;> cases b <;> simp only [RelRes] at h
  · subst h
    exact ⟨fun e => by simp, fun x y hx => by cases hx⟩
  · refine ⟨fun e => by simp, fun x y hx hy => ?_⟩
    cases hx; cases hy
    exact h

theorem shift_aux (s : ℝ) : Function.Injective (fun q : Quality ℝ => (⟨q.gain + s, q.loss⟩ : Quality ℝ)) := by
  intro a b h
  obtain ⟨g, l⟩ := a
  obtain ⟨g', l'⟩ := b
  simp only [Quality.mk.injEq] at h ⊢
  exact ⟨by linarith [h.1], h.2⟩

/-- The searches on ordered data. -/
theorem orderedSearch (fl : FloatLaws F ℝ u) (v v' : OValues ℝ) (m n c : Nat) (V : Nat → Nat → ℝ) (hc : 0 < c) (hn : 0 < n)
    (hnc : n * c ≤ 65535) (hv : OData v m n V) (hv' : OData v' m (n * c) (finer c V))
    (h0 : ∀ k i, k < m → i < n → 0 ≤ V k i) :
    ∃ q q' : UTM (Quality ℝ),
      (OQualities.ofValues v).computeQualities = .ok ⟨some v, some q⟩ ∧
      (OQualities.ofValues v').computeQualities = .ok ⟨some v', some q'⟩ ∧
      ∀ (strict : Bool) (fuel : Nat) (t lo hi : F), (0 : ℝ) ≤ FloatP.toK lo → (FloatP.toK lo : ℝ) ≤ FloatP.toK hi →
        (FloatP.toK hi : ℝ) ≤ 1 → ∀ st st',
        SameSearch ((∑ k ∈ Finset.range m, ∑ x ∈ Finset.range n, V k x) * Real.logb 2 c)
          (computeBestPartitions (oOps q) strict fuel t lo hi st) (computeBestPartitions (oOps q') strict fuel t lo hi st') := by
  have hn1 : n ≤ 65535 := le_trans (Nat.le_mul_of_pos_right n hc) hnc
  have h0' : ∀ k i, k < m → i < n * c → 0 ≤ finer c V k i := fun k i hk hi =>
    div_nonneg (h0 k _ hk (Nat.div_lt_of_lt_mul (by rwa [Nat.mul_comm] at hi))) (by positivity)
  obtain ⟨q, e, hq⟩ := oq_object hv hn1 h0
  obtain ⟨q', e', hq'⟩ := oq_object hv' hnc h0'
  refine ⟨q, q', e, e', fun strict fuel t lo hi hlo hl hhi st st' => sameSearch_aux ?_⟩
  refine search_corr fl (.ordered q n _ hq) (.ordered q' (n * c) _ hq') _ (shift_aux _) ?_ strict fuel t lo hi hlo hl hhi st st'
  intro p hp0 hp1 X X' eX eX'
  obtain ⟨P, P', L, L', g1, g2, _, _, _, g6, _⟩ := oBest_finer hc hn h0 hq hq' p hp0 (wLoss_nonneg fl hp1)
  obtain rfl := C24.res_aux eX g1
  obtain rfl := C24.res_aux eX' g2
  exact g6

/-- The searches on spatiotemporal data. -/
theorem spatiotemporalSearch (fl : FloatLaws F ℝ u) (leaves : Nat) (parents : List Int) (v v' : DValues ℝ)
    (hmd : RightMeta leaves parents v.md) (hmd' : v'.md = v.md) (hlt : leaves < parents.length) (m n c : Nat)
    (V : Nat → Nat × Nat → ℝ) (hc : 0 < c) (hn : 0 < n) (hnc : n * c ≤ 65535) (hb : leaves * (n * c) < 2147483648)
    (hv : DData v m leaves n V) (hv' : DData v' m leaves (n * c) (finerD c V))
    (h0 : ∀ k h x, k < m → h < leaves → x < n → 0 ≤ V k (h, x)) :
    ∃ q q' : List (UTM (Quality ℝ)),
      (DQualities.ofValues v).computeQualities = .ok ⟨some v, some q, v.md⟩ ∧
      (DQualities.ofValues v').computeQualities = .ok ⟨some v', some q', v.md⟩ ∧
      ∀ (strict : Bool) (fuel : Nat) (t lo hi : F), (0 : ℝ) ≤ FloatP.toK lo → (FloatP.toK lo : ℝ) ≤ FloatP.toK hi →
        (FloatP.toK hi : ℝ) ≤ 1 → ∀ st st',
        SameSearch ((∑ k ∈ Finset.range m, ∑ x ∈ Finset.range leaves ×ˢ Finset.range n, V k x) * Real.logb 2 c)
          (computeBestPartitions (dOps q v.md) strict fuel t lo hi st)
          (computeBestPartitions (dOps q' v.md) strict fuel t lo hi st') := by
  have hn1 : n ≤ 65535 := le_trans (Nat.le_mul_of_pos_right n hc) hnc
  have hb1 : leaves * n < 2147483648 := lt_of_le_of_lt (Nat.mul_le_mul_left _ (Nat.le_mul_of_pos_right n hc)) hb
  have h0' : ∀ k h i, k < m → h < leaves → i < n * c → 0 ≤ finerD c V k (h, i) := fun k h i hk hh hi =>
    div_nonneg (h0 k h _ hk hh (Nat.div_lt_of_lt_mul (by rwa [Nat.mul_comm] at hi))) (by positivity)
  obtain ⟨q, e, hq⟩ := dq_object hmd hlt hn1 hb1 hv h0
  obtain ⟨q', e', hq'⟩ := dq_object (by rw [hmd']; exact hmd) hlt hnc hb hv' h0'
  rw [hmd'] at e'
  refine ⟨q, q', e, e', fun strict fuel t lo hi hlo hl hhi st st' => sameSearch_aux ?_⟩
  refine search_corr fl (.spatiotemporal leaves parents v.md n q _ hmd hn hn1 hq)
    (.spatiotemporal leaves parents v.md (n * c) q' _ hmd (Nat.mul_pos hn hc) hnc hq') _ (shift_aux _) ?_
    strict fuel t lo hi hlo hl hhi st st'
  intro p hp0 hp1 X X' eX eX'
  obtain ⟨P, P', L, L', g1, g2, _, _, g6, _⟩ := dBest_finer hmd hc hn hnc h0 hq hq' p hp0 (wLoss_nonneg fl hp1)
  obtain rfl := C24.res_aux eX g1
  obtain rfl := C24.res_aux eX' g2
  exact g6

/-- The hypotheses are met by the values 1, 3 and the same values cut into two. -/
example (p : ℝ) (hp0 : 0 ≤ p) (hp1 : p ≤ 1) : ∃ w w' q q' P P',
    (OQualities.ofValues (OValuesN1.ofVec ([1, 3] : List ℝ)).toOValues).computeQualities = .ok ⟨w, some q⟩ ∧
    (OQualities.ofValues (OValuesN1.ofVec ([1 / 2, 1 / 2, 3 / 2, 3 / 2] : List ℝ)).toOValues).computeQualities = .ok ⟨w', some q'⟩ ∧
    oBestPartition (F := ℝ) q p = .ok P ∧ oBestPartition (F := ℝ) q' p = .ok P' ∧
    P'.quality = ⟨P.quality.gain + 4, P.quality.loss⟩ ∧
    P'.parts.map (fun x => (x.start, x.end)) = P.parts.map (fun x => (2 * x.start, 2 * x.end + 1)) := by
  let f : Nat → ℝ := fun i => ([1, 3] : List ℝ).getD i 0
  have hd : OData (OValuesN1.ofVec ([1, 3] : List ℝ)).toOValues 1 2 (fun _ => f) := (OValuesN1.ofVec_holds (O := 2) f).data
  have hd' : OData (OValuesN1.ofVec ([1 / 2, 1 / 2, 3 / 2, 3 / 2] : List ℝ)).toOValues 1 (2 * 2) (finer 2 (fun _ => f)) := by
    have := (OValuesN1.ofVec_holds (O := 4) (fun i => f (i / 2) / ((2 : Nat) : ℝ))).data
    have e : table1 4 (fun i => f (i / 2) / ((2 : Nat) : ℝ)) = ([1 / 2, 1 / 2, 3 / 2, 3 / 2] : List ℝ) := by
      norm_num [table1, List.range_succ, f]
    rw [e] at this
    exact this
  obtain ⟨q, q', h1, h2, _, h3⟩ := ordered (F := ℝ) (exactLaws ℝ) _ _ 1 2 2 _ (by norm_num) (by norm_num) (by norm_num) hd hd' (by
    intro k i _ hi
    match i, hi with
    | 0, _ => simp [f]
    | 1, _ => simp [f])
  obtain ⟨P, P', e1, e2, e3, e4⟩ := h3 p hp0 hp1
  refine ⟨_, _, q, q', P, P', h1, h2, e1, e2, ?_, ?_⟩
  · rw [e3]
    have : Real.logb 2 ((2 : Nat) : ℝ) = 1 := by norm_num
    rw [this]
    norm_num [f, Finset.sum_range_succ]
  · rw [e4 (by
      intro i hi
      match i, hi with
      | 0, _ => exact ⟨0, one_pos, by simp [f]⟩
      | 1, _ => exact ⟨0, one_pos, by simp [f]⟩)]
    norm_num

/-- Spatiotemporal: the tree of C03 with 4 leaves and 3 slices, values `h + i + 1`; every slice cut into two. -/
example (p : ℝ) (hp0 : 0 ≤ p) (hp1 : p ≤ 1) : ∃ c c' q q' P P',
    DValuesN2.ofVec (table2 4 3 (fun x => (x.1 + x.2 + 1 : ℝ))) [4, 4, 6, 6, 5, -1, 5] = .ok c ∧
    DValuesN2.ofVec (table2 4 6 (fun x => ((x.1 + (x.2 / 2 : Nat) + 1) / 2 : ℝ))) [4, 4, 6, 6, 5, -1, 5] = .ok c' ∧
    (DQualities.ofValues c.toDValues).computeQualities = .ok ⟨some c.toDValues, some q, c.md⟩ ∧
    (DQualities.ofValues c'.toDValues).computeQualities = .ok ⟨some c'.toDValues, some q', c.md⟩ ∧
    dBestPartition (F := ℝ) q c.md p = .ok P ∧ dBestPartition (F := ℝ) q' c.md p = .ok P' ∧
    P'.parts.map (fun x => (x.h, x.hsize, x.start, x.end)) =
      P.parts.map (fun x => (x.h, x.hsize, 2 * x.start, 2 * x.end + 1)) := by
  have t : IsTree 4 [4, 4, 6, 6, 5, -1, 5] 5 :=
    .ofCheck (fun h => if h < 4 then 2 else if h = 5 then 0 else 1) (by decide) (by decide) (by decide) (by decide)
  obtain ⟨md, hm, _, hr⟩ := C03.right 4 [4, 4, 6, 6, 5, -1, 5] 5 t C03.sevenNearest
  have hc : DValuesN2.ofVec (table2 4 3 (fun x => (x.1 + x.2 + 1 : ℝ))) [4, 4, 6, 6, 5, -1, 5] =
      .ok ⟨1, 3, md, table2 4 3 (fun x => (x.1 + x.2 + 1 : ℝ))⟩ := by
    unfold DValuesN2.ofVec
    rw [SIZE1_table2, hm, SIZE2_table2 (by norm_num)]
    rfl
  have hc' : DValuesN2.ofVec (table2 4 6 (fun x => ((x.1 + (x.2 / 2 : Nat) + 1) / 2 : ℝ))) [4, 4, 6, 6, 5, -1, 5] =
      .ok ⟨1, 6, md, table2 4 6 (fun x => ((x.1 + (x.2 / 2 : Nat) + 1) / 2 : ℝ))⟩ := by
    unfold DValuesN2.ofVec
    rw [SIZE1_table2, hm, SIZE2_table2 (by norm_num)]
    rfl
  obtain ⟨_, _, hh⟩ := DValuesN2.ofVec_holds (by norm_num) _ hc
  obtain ⟨_, _, hh'⟩ := DValuesN2.ofVec_holds (by norm_num) _ hc'
  have hd' : DData (DValuesN2.toDValues ⟨1, 6, md, table2 4 6 (fun x => ((x.1 + (x.2 / 2 : Nat) + 1) / 2 : ℝ))⟩) 1 4 (3 * 2)
      (finerD 2 (fun _ x => (x.1 + x.2 + 1 : ℝ))) := by
    have := hh'.data
    have e : finerD 2 (fun _ x => (x.1 + x.2 + 1 : ℝ)) = fun _ (x : Nat × Nat) => ((x.1 + (x.2 / 2 : Nat) + 1) / 2 : ℝ) := by
      funext k x; simp [finerD]
    rw [e]
    exact this
  obtain ⟨q, q', h1, h2, _, h3⟩ := spatiotemporal (F := ℝ) (exactLaws ℝ) 4 _
    (DValuesN2.toDValues ⟨1, 3, md, table2 4 3 (fun x => (x.1 + x.2 + 1 : ℝ))⟩)
    (DValuesN2.toDValues ⟨1, 6, md, table2 4 6 (fun x => ((x.1 + (x.2 / 2 : Nat) + 1) / 2 : ℝ))⟩) hr rfl (by decide) 1 3 2
    (fun _ x => (x.1 + x.2 + 1 : ℝ)) (by norm_num) (by norm_num) (by norm_num) (by norm_num) hh.data hd'
    (fun k h x _ _ _ => by positivity)
  obtain ⟨P, P', e1, e2, _, e4⟩ := h3 p hp0 hp1
  exact ⟨_, _, q, q', P, P', hc, hc', h1, h2, e1, e2, e4 (fun h i _ _ => ⟨0, one_pos, by positivity⟩)⟩

/-! ## The hypotheses are met by concrete inputs (`Proofs/Samples.lean`) -/

example := orderedSearch (exactLaws ℝ) Sample.oV _ 2 3 2 _ (by decide) (by decide) (by decide) Sample.o
  (OValuesN2.ofVec_holds (V := 2) (O := 6) (by decide) (fun x => finer 2 Sample.val x.1 x.2)).data Sample.o_nonneg

end Lp.C73
