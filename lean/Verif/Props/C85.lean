import Verif.Proofs.Description
import Verif.Props.C16
import Verif.Props.C19
import Verif.Props.C21
import Verif.Props.C24
import Verif.Props.C57

/-!
# C85 — what gain, loss and the best partition mean, in bits

Gain of a part: the bits needed to tell at which of its positions each individual is (Shannon).  Loss of a part: the bits lost when its values are
replaced by their average (Kullback-Leibler).  Gain of a partition: the bits saved when one tells only in which part each individual is.  Loss of a partition:
the bits lost when the data are read off from the partition.  The partition returned for `p` makes
`p` × (bits needed to tell the parts) + (1-p) × (bits lost) as small as possible.  (`Spec/Description.lean`.)
-/

namespace Lp.C85
open Spec
open scoped BigOperators
variable {F : Type} [FloatP F ℝ] {A ι : Type}

/-- The criterion, for a partition `L` and the averages `W` of the data on its parts. -/
noncomputable def cost (p : F) (m : Nat) (V W : Nat → ι → ℝ) (U : Finset ι) (pos : A → Finset ι) (L : List A) : ℝ :=
  FloatP.toK p * macroBits m V U pos L + FloatP.toK (FloatP.oneSub p) * divergenceBits m V W U

/-- Gain and loss of a part with the positions `s`. -/
def CellBits (m : Nat) (V : Nat → ι → ℝ) (s : Finset ι) (x : Quality ℝ) : Prop :=
  x.gain = microBits m V s ∧ x.loss = divergenceBits m V (fun k _ => (∑ y ∈ s, V k y) / s.card) s

/-- Gain and loss of a partition, and its place among the partitions for which `other` holds. -/
def PartitionBits (p : F) (m : Nat) (V : Nat → ι → ℝ) (U : Finset ι) (pos : A → Finset ι) (other : List A → Prop) (L : List A) (x : Quality ℝ) : Prop :=
  x.gain = microBits m V U - macroBits m V U pos L ∧
  (∀ W, Averages m V W pos L → x.loss = divergenceBits m V W U) ∧
  (∃ W, Averages m V W pos L) ∧
  ∀ L' W W', other L' → Averages m V W pos L → Averages m V W' pos L' → cost p m V W U pos L ≤ cost p m V W' U pos L'

theorem cell_aux {m : Nat} {V : Nat → ι → ℝ} {s : Finset ι} (hv : ∀ k < m, ∀ x ∈ s, 0 ≤ V k x) : CellBits m V s (entQ m V s) := by
  constructor
  · unfold entQ microBits gainSeries
    exact Finset.sum_congr rfl (fun k hk => gainOver_bits (hv k (Finset.mem_range.mp hk)))
  · unfold entQ divergenceBits lossSeries
    exact Finset.sum_congr rfl (fun k hk => lossOver_bits (hv k (Finset.mem_range.mp hk)) (fun _ _ => rfl))

theorem partition_aux {p : F} {m : Nat} {V : Nat → ι → ℝ} {U : Finset ι} {pos : A → Finset ι} {other : List A → Prop} {L : List A}
    (hv : ∀ k < m, ∀ x ∈ U, 0 ≤ V k x) (hL : Cuts pos L U) (ho : ∀ L', other L' → Cuts pos L' U)
    (hbest : ∀ L', other L' → valueOf (FloatP.toK p) (FloatP.toK (FloatP.oneSub p)) (fun a => entQ m V (pos a)) L' ≤
      valueOf (FloatP.toK p) (FloatP.toK (FloatP.oneSub p)) (fun a => entQ m V (pos a)) L) :
    PartitionBits p m V U pos other L ⟨gainOf (fun a => entQ m V (pos a)) L, lossOf (fun a => entQ m V (pos a)) L⟩ := by
  refine ⟨hL.gainOf_bits hv, fun W hW => hL.lossOf_bits hv hW, hL.averages m V, fun L' W W' h' hW hW' => ?_⟩
  have h := hbest L' h'
  unfold valueOf at h
  rw [hL.gainOf_bits hv, hL.lossOf_bits hv hW, (ho L' h').gainOf_bits hv, (ho L' h').lossOf_bits hv hW'] at h
  unfold cost
  linarith

/-- Ordered data. -/
theorem ordered (v : OValues ℝ) (m n : Nat) (V : Nat → Nat → ℝ) (hv : OData v m n V) (hn0 : 0 < n) (hn : n ≤ 65535)
    (h0 : ∀ k i, k < m → i < n → 0 ≤ V k i) :
    ∃ q, (OQualities.ofValues v).computeQualities = .ok ⟨some v, some q⟩ ∧
      (∀ i j, i ≤ j → j < n → ∃ x, q.get i j = .ok x ∧ CellBits m V (Finset.Icc i j) x) ∧
      ∀ p : F, ∃ (P : OPartition F ℝ) (L : List (Nat × Nat)), oBestPartition q p = .ok P ∧ Tiles 0 n L ∧
        P.parts.map (fun x => (x.start, x.end)) = L.map (fun I => ((I.1 : Int), (I.2 : Int))) ∧
        PartitionBits p m V (Finset.Icc 0 (n - 1)) (fun I : Nat × Nat => Finset.Icc I.1 I.2) (Tiles 0 n) L P.quality := by
  obtain ⟨q, e, hq⟩ := oq_object hv hn h0
  refine ⟨q, e, fun i j hij hj => ⟨_, hq.get hij hj, cell_aux (nonneg_oCells h0 hj)⟩, fun p => ?_⟩
  obtain ⟨P, L, h1, h2, h3, h4, h5⟩ := C16.optimal q n _ hq p
  refine ⟨P, L, h1, h2, by rw [h3, List.map_map]; rfl, ?_⟩
  rw [h4]
  refine partition_aux (pos := oCells) (nonneg_oCells h0 (by omega)) (tiles_cuts h2 hn0) (fun L' h' => tiles_cuts h' hn0) (fun L' h' => ?_)
  rcases h5 L' h' with h | ⟨h, _⟩
  · exact h.le
  · exact h.le

/-- Hierarchical data. -/
theorem hierarchical (leaves : Nat) (parents : List Int) (v : HValues ℝ) (hmd : RightMeta leaves parents v.md)
    (hlt : leaves < parents.length) (m : Nat) (V : Nat → Nat → ℝ) (hv : HData v m leaves V) (h0 : ∀ k h, k < m → h < leaves → 0 ≤ V k h) :
    ∃ q, (HQualities.ofValues v).computeQualities = .ok ⟨some v, some q, v.md⟩ ∧
      (∀ h, h < parents.length → ∃ x, q[h]? = some x ∧ CellBits m V (leavesUnder leaves parents h) x) ∧
      ∀ p : F, ∃ (P : HPartition F ℝ) (L : List Nat), hBestPartition q v.md p = .ok P ∧ LeafCover leaves parents L ∧
        P.parts.map (fun x => x.h) = L ∧
        PartitionBits p m V (Finset.range leaves) (leavesUnder leaves parents) (LeafCover leaves parents) L P.quality := by
  obtain ⟨q, e, hq⟩ := hq_object hmd hlt hv h0
  refine ⟨q, e, fun h hh => ⟨_, hq.cell h hh, cell_aux (nonneg_hCells h0)⟩, fun p => ?_⟩
  obtain ⟨P, L, h1, h2, h3, h4, h5⟩ := C19.optimal leaves parents v.md hmd hlt q _ hq p
  refine ⟨P, L, h1, h2, ?_, ?_⟩
  · have := congrArg (List.map Prod.fst) h3
    simpa [List.map_map, Function.comp_def] using this
  rw [h4, ← leavesUnder_root hmd.tree]
  exact partition_aux (nonneg_hCells h0) (leafCover_cuts hmd.tree h2) (fun L' h' => leafCover_cuts hmd.tree h') (fun L' h' => (h5 L' h').1)

/-- Spatiotemporal data: best among the coarse-first partitions. -/
theorem spatiotemporal (leaves : Nat) (parents : List Int) (v : DValues ℝ) (hmd : RightMeta leaves parents v.md)
    (hlt : leaves < parents.length) (m n : Nat) (hn0 : 0 < n) (hn : n ≤ 65535) (hb : leaves * n < 2147483648)
    (V : Nat → Nat × Nat → ℝ) (hv : DData v m leaves n V) (h0 : ∀ k h x, k < m → h < leaves → x < n → 0 ≤ V k (h, x)) :
    ∃ q, (DQualities.ofValues v).computeQualities = .ok ⟨some v, some q, v.md⟩ ∧
      (∀ h i j, h < parents.length → i ≤ j → j < n →
        ∃ x, mget q h i j = .ok x ∧ CellBits m V (leavesUnder leaves parents h ×ˢ Finset.Icc i j) x) ∧
      ∀ p : F, ∃ (P : DPartition F ℝ) (L : List Rect), dBestPartition q v.md p = .ok P ∧ CellCover leaves parents n L ∧
        CoarseFirst parents L ∧ P.parts.map (fun x => (⟨x.h, x.start, x.end⟩ : Rect)) = L ∧
        PartitionBits p m V (Finset.range leaves ×ˢ Finset.Icc 0 (n - 1))
          (fun r : Rect => leavesUnder leaves parents r.node ×ˢ Finset.Icc r.first r.last)
          (fun L' => CellCover leaves parents n L' ∧ CoarseFirst parents L') L P.quality := by
  obtain ⟨q, e, hq⟩ := dq_object hmd hlt hn hb hv h0
  refine ⟨q, e, fun h i j hh hij hj => ⟨_, hq.get hh hij hj, cell_aux (nonneg_dCells h0 hj)⟩, fun p => ?_⟩
  obtain ⟨P, L, h1, h2, hc, h3, h4, h5⟩ := C21.optimal leaves parents v.md hmd n hn0 hn q _ hq p
  refine ⟨P, L, h1, h2, hc, ?_, ?_⟩
  · have := congrArg (List.map Prod.fst) h3
    simpa [List.map_map, Function.comp_def] using this
  rw [h4, ← leavesUnder_root hmd.tree]
  refine partition_aux (pos := dCells leaves parents) (U := dCells leaves parents ⟨v.md.root, 0, n - 1⟩) (nonneg_dCells h0 (by omega))
    (cellCover_cuts hmd.tree h2 hn0) (fun L' h' => cellCover_cuts hmd.tree h'.1 hn0) (fun L' h' => ?_)
  rcases h5 L' h'.1 h'.2 with h | ⟨h, _⟩
  · exact h.le
  · exact h.le

/-- The bits are totals times Shannon entropies of shares and Kullback-Leibler divergences from even shares; together they make
`log₂` of the number of positions per individual, whatever the values. -/
theorem textbook {m : Nat} {V : Nat → ι → ℝ} {s : Finset ι} {x : Quality ℝ} (hv : ∀ k < m, ∀ i ∈ s, 0 < ∑ y ∈ s, V k y ∧ 0 ≤ V k i)
    (hx : CellBits m V s x) :
    x.gain = ∑ k ∈ Finset.range m, (∑ y ∈ s, V k y) * ∑ i ∈ s, (V k i / ∑ y ∈ s, V k y) * Real.logb 2 (1 / (V k i / ∑ y ∈ s, V k y)) ∧
    x.loss = ∑ k ∈ Finset.range m, (∑ y ∈ s, V k y) * ∑ i ∈ s, (V k i / ∑ y ∈ s, V k y) *
      Real.logb 2 ((V k i / ∑ y ∈ s, V k y) / (1 / s.card)) ∧
    x.gain + x.loss = ∑ k ∈ Finset.range m, (∑ y ∈ s, V k y) * Real.logb 2 s.card := by
  have hn : ∀ k < m, ∀ i ∈ s, 0 ≤ V k i := fun k hk i hi => (hv k hk i hi).2
  refine ⟨?_, ?_, ?_⟩
  · rw [hx.1]
    unfold microBits
    refine Finset.sum_congr rfl (fun k hk => ?_)
    rw [Finset.mul_sum]
    refine Finset.sum_congr rfl (fun i hi => ?_)
    have hT := (hv k (Finset.mem_range.mp hk) i hi).1
    rw [one_div_div, ← mul_assoc, mul_div_cancel₀ _ hT.ne']
  · rw [hx.2]
    unfold divergenceBits
    refine Finset.sum_congr rfl (fun k hk => ?_)
    rw [Finset.mul_sum]
    refine Finset.sum_congr rfl (fun i hi => ?_)
    have hT := (hv k (Finset.mem_range.mp hk) i hi).1
    rw [← mul_assoc, mul_div_cancel₀ _ hT.ne']
    congr 2
    have hc : (0 : ℝ) < s.card := by exact_mod_cast Finset.card_pos.mpr ⟨i, hi⟩
    field_simp
  · rw [hx.1, hx.2, ← (cell_aux hn).1, ← (cell_aux hn).2]
    unfold entQ gainSeries lossSeries
    rw [← Finset.sum_add_distrib]
    refine Finset.sum_congr rfl (fun k _ => ?_)
    unfold lossOver
    ring

/-! ## Examples -/

/-- Values 1, 1, 2. -/
noncomputable def exV : Nat → ℝ := fun i => if i = 2 then 2 else 1

theorem exV_aux (i : Nat) : 0 < exV i := by unfold exV; split <;> norm_num

example : ∃ q, (OQualities.ofValues (OValuesN1.ofVec (table1 3 exV)).toOValues).computeQualities =
      .ok ⟨some (OValuesN1.ofVec (table1 3 exV)).toOValues, some q⟩ ∧
    (∃ x, q.get 0 2 = .ok x ∧ CellBits 1 (fun _ => exV) (Finset.Icc 0 2) x ∧
      x.gain + x.loss = 4 * Real.logb 2 3) ∧
    ∀ p : ℝ, ∃ (P : OPartition ℝ ℝ) (L : List (Nat × Nat)), oBestPartition q p = .ok P ∧ Tiles 0 3 L := by
  obtain ⟨q, h1, h2, h3⟩ := ordered (F := ℝ) (OValuesN1.ofVec (table1 3 exV)).toOValues 1 3 (fun _ => exV)
    (OValuesN1.ofVec_holds (O := 3) exV).data (by decide) (by decide) (fun _ i _ _ => (exV_aux i).le)
  obtain ⟨x, hx, hb⟩ := h2 0 2 (by decide) (by decide)
  have hI : (Finset.Icc 0 2 : Finset Nat) = {0, 1, 2} := by decide
  have hS : ∑ i ∈ Finset.Icc 0 2, exV i = 4 := by rw [hI]; norm_num [exV]
  refine ⟨q, h1, ⟨x, hx, hb, ?_⟩, fun p => ?_⟩
  · have := (textbook (fun k _ i _ => ⟨by show 0 < ∑ i ∈ Finset.Icc 0 2, exV i; rw [hS]; norm_num, (exV_aux i).le⟩) hb).2.2
    rw [this, Finset.sum_range_one, hS]
    rfl
  · obtain ⟨P, L, g1, g2, _⟩ := h3 p
    exact ⟨P, L, g1, g2⟩

example : ∃ (v : HValues ℝ) (q : List (Quality ℝ)), (HQualities.ofValues v).computeQualities = .ok ⟨some v, some q, v.md⟩ ∧
    ∀ p : ℝ, ∃ (P : HPartition ℝ ℝ) (L : List Nat), hBestPartition q v.md p = .ok P ∧
      PartitionBits p 1 (fun _ => exV) (Finset.range 4) (leavesUnder 4 [4, 4, 5, 5, 6, 6, -1]) (LeafCover 4 [4, 4, 5, 5, 6, 6, -1]) L P.quality := by
  obtain ⟨md, _, r⟩ := C57.meta_aux
  have h : (⟨1, md, table1 4 exV⟩ : HValuesN1 ℝ).Holds 4 md exV := ⟨rfl, rfl, rfl⟩
  obtain ⟨q, h1, _, h3⟩ := hierarchical (F := ℝ) 4 [4, 4, 5, 5, 6, 6, -1] _ r (by decide) 1 (fun _ => exV) h.data (fun _ i _ _ => (exV_aux i).le)
  refine ⟨_, q, h1, fun p => ?_⟩
  obtain ⟨P, L, g1, _, _, g4⟩ := h3 p
  exact ⟨P, L, g1, g4⟩

example : ∃ (v : DValues ℝ) (q : List (UTM (Quality ℝ))), (DQualities.ofValues v).computeQualities = .ok ⟨some v, some q, v.md⟩ ∧
    ∀ p : ℝ, ∃ (P : DPartition ℝ ℝ) (L : List Rect), dBestPartition q v.md p = .ok P ∧ CellCover 4 [4, 4, 5, 5, 6, 6, -1] 2 L := by
  obtain ⟨md, _, r⟩ := C57.meta_aux
  have h : (⟨1, 2, md, table2 4 2 (fun x => exV (x.1 + x.2))⟩ : DValuesN2 ℝ).Holds 4 2 md (fun x => exV (x.1 + x.2)) := ⟨rfl, rfl, rfl, rfl⟩
  obtain ⟨q, h1, _, h3⟩ := spatiotemporal (F := ℝ) 4 [4, 4, 5, 5, 6, 6, -1] _ r (by decide) 1 2 (by decide) (by decide) (by decide)
    (fun _ x => exV (x.1 + x.2)) h.data (fun _ _ _ _ _ _ => (exV_aux _).le)
  refine ⟨_, q, h1, fun p => ?_⟩
  obtain ⟨P, L, g1, g2, _⟩ := h3 p
  exact ⟨P, L, g1, g2⟩

end Lp.C85
