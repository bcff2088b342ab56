import Verif.Proofs.Ent
import Verif.Props.C05
import Verif.Props.C06
import Verif.Props.C07
import Verif.Proofs.Samples

/-!
# C09 — merging never lowers gain or loss

In each theorem `Q` are the entries of the table computed by `computeQualities` on non-negative data.  If every part of the partition `L`
lies inside a part of the partition `M` (so the parts of `M` are unions of parts of `L`), then `M` has at least the
gain and at least the loss of `L`.  The whole has the largest gain and loss; the partition into single values has 0.
-/

namespace Lp.C09
open Spec

/-- Ordered data. -/
theorem ordered (v : OValues ℝ) (m n : Nat) (V : Nat → Nat → ℝ) (hv : OData v m n V) (hn0 : 0 < n) (hn : n ≤ 65535)
    (h0 : ∀ k i, k < m → i < n → 0 ≤ V k i) :
    ∃ (q : UTM (Quality ℝ)) (Q : Nat × Nat → Quality ℝ),
      (OQualities.ofValues v).computeQualities = .ok ⟨some v, some q⟩ ∧
      (∀ i j, i ≤ j → j < n → q.get i j = .ok (Q (i, j))) ∧
      (∀ L M, Tiles 0 n L → Tiles 0 n M → (∀ I ∈ L, ∃ J ∈ M, J.1 ≤ I.1 ∧ I.2 ≤ J.2) →
        gainOf Q L ≤ gainOf Q M ∧ lossOf Q L ≤ lossOf Q M) ∧
      (∀ L, Tiles 0 n L → gainOf Q L ≤ (Q (0, n - 1)).gain ∧ lossOf Q L ≤ (Q (0, n - 1)).loss) ∧
      (∀ L, Tiles 0 n L → (∀ I ∈ L, I.1 = I.2) → gainOf Q L = 0 ∧ lossOf Q L = 0) := by
  obtain ⟨q, e, hq⟩ := oq_object hv hn h0
  refine ⟨q, fun I => entQ m V (oCells I), e, fun i j hij hj => hq.get hij hj, ?_, ?_, ?_⟩
  · intro L M hL hM hr
    refine (tiles_cuts hL hn0).coarsen (tiles_cuts hM hn0) (fun I hI => ?_) (nonneg_oCells h0 (by omega))
    obtain ⟨J, hJ, h1, h2⟩ := hr I hI
    exact ⟨J, hJ, Finset.Icc_subset_Icc h1 h2⟩
  · intro L hL
    exact (tiles_cuts hL hn0).whole (by simp [oCells]) (nonneg_oCells h0 (by omega))
  · intro L hL h1
    exact finest_zero (fun I hI => ⟨I.1, by simp [oCells, ← h1 I hI]⟩)

/-- Hierarchical data: `L` and `M` are sets of nodes covering every leaf once. -/
theorem hierarchical (leaves : Nat) (parents : List Int) (v : HValues ℝ) (hmd : RightMeta leaves parents v.md)
    (hlt : leaves < parents.length) (m : Nat) (V : Nat → Nat → ℝ) (hv : HData v m leaves V)
    (h0 : ∀ k h, k < m → h < leaves → 0 ≤ V k h) :
    ∃ (q : List (Quality ℝ)) (Q : Nat → Quality ℝ),
      (HQualities.ofValues v).computeQualities = .ok ⟨some v, some q, v.md⟩ ∧
      (∀ h, h < parents.length → q[h]? = some (Q h)) ∧
      (∀ L M, LeafCover leaves parents L → LeafCover leaves parents M →
        (∀ x ∈ L, ∃ y ∈ M, ∀ l, l < leaves → Under parents x l → Under parents y l) →
        gainOf Q L ≤ gainOf Q M ∧ lossOf Q L ≤ lossOf Q M) ∧
      (∀ L M, LeafCover leaves parents L → LeafCover leaves parents M → Refines parents L M →
        gainOf Q L ≤ gainOf Q M ∧ lossOf Q L ≤ lossOf Q M) ∧
      (∀ L, LeafCover leaves parents L → gainOf Q L ≤ (Q v.md.root).gain ∧ lossOf Q L ≤ (Q v.md.root).loss) ∧
      gainOf Q (List.range leaves) = 0 ∧ lossOf Q (List.range leaves) = 0 := by
  obtain ⟨q, e, hq⟩ := hq_object hmd hlt hv h0
  have key : ∀ L M, LeafCover leaves parents L → LeafCover leaves parents M →
        (∀ x ∈ L, ∃ y ∈ M, ∀ l, l < leaves → Under parents x l → Under parents y l) →
        gainOf (fun h => entQ m V (leavesUnder leaves parents h)) L ≤ gainOf (fun h => entQ m V (leavesUnder leaves parents h)) M ∧
        lossOf (fun h => entQ m V (leavesUnder leaves parents h)) L ≤ lossOf (fun h => entQ m V (leavesUnder leaves parents h)) M := by
    intro L M hL hM hr
    refine (leafCover_cuts hmd.tree hL).coarsen (leafCover_cuts hmd.tree hM) (fun x hx => ?_) (nonneg_hCells h0)
    obtain ⟨y, hy, h1⟩ := hr x hx
    refine ⟨y, hy, fun l hl => ?_⟩
    rw [mem_leavesUnder] at hl ⊢
    exact ⟨hl.1, h1 l hl.1 hl.2⟩
  refine ⟨q, fun h => entQ m V (leavesUnder leaves parents h), e, fun h hh => hq.cell h hh, key, ?_, ?_, ?_⟩
  · intro L M hL hM hr
    refine key L M hL hM (fun x hx => ?_)
    obtain ⟨y, hy, h1⟩ := hr x hx
    exact ⟨y, hy, fun l _ hl => h1.trans hl⟩
  · intro L hL
    exact (leafCover_cuts hmd.tree hL).whole (leaves_nonempty hmd.tree hmd.tree.rootLt) (nonneg_hCells h0)
  · exact finest_zero (fun h hh => ⟨h, leavesUnder_leaf hmd.tree (List.mem_range.mp hh)⟩)

/-- Spatiotemporal data: `L` and `M` are lists of rectangles containing every cell once. -/
theorem spatiotemporal (leaves : Nat) (parents : List Int) (v : DValues ℝ) (hmd : RightMeta leaves parents v.md)
    (hlt : leaves < parents.length) (m n : Nat) (hn0 : 0 < n) (hn : n ≤ 65535) (hb : leaves * n < 2147483648)
    (V : Nat → Nat × Nat → ℝ) (hv : DData v m leaves n V)
    (h0 : ∀ k h x, k < m → h < leaves → x < n → 0 ≤ V k (h, x)) :
    ∃ (q : List (UTM (Quality ℝ))) (Q : Rect → Quality ℝ),
      (DQualities.ofValues v).computeQualities = .ok ⟨some v, some q, v.md⟩ ∧
      (∀ h i j, h < parents.length → i ≤ j → j < n → mget q h i j = .ok (Q ⟨h, i, j⟩)) ∧
      (∀ L M, CellCover leaves parents n L → CellCover leaves parents n M →
        (∀ r ∈ L, ∃ s ∈ M, ∀ l t, l < leaves → r.Has parents l t → s.Has parents l t) →
        gainOf Q L ≤ gainOf Q M ∧ lossOf Q L ≤ lossOf Q M) ∧
      (∀ L, CellCover leaves parents n L →
        gainOf Q L ≤ (Q ⟨v.md.root, 0, n - 1⟩).gain ∧ lossOf Q L ≤ (Q ⟨v.md.root, 0, n - 1⟩).loss) ∧
      (∀ L, CellCover leaves parents n L → (∀ r ∈ L, r.node < leaves ∧ r.first = r.last) →
        gainOf Q L = 0 ∧ lossOf Q L = 0) := by
  obtain ⟨q, e, hq⟩ := dq_object hmd hlt hn hb hv h0
  refine ⟨q, fun r => entQ m V (dCells leaves parents r), e, fun h i j hh hij hj => hq.get hh hij hj, ?_, ?_, ?_⟩
  · intro L M hL hM hr
    refine (cellCover_cuts hmd.tree hL hn0).coarsen (cellCover_cuts hmd.tree hM hn0) (fun r hr' => ?_)
      (nonneg_dCells h0 (by omega))
    obtain ⟨s, hs, h1⟩ := hr r hr'
    refine ⟨s, hs, fun x hx => ?_⟩
    simp only [dCells, Finset.mem_product, mem_leavesUnder, Finset.mem_Icc] at hx ⊢
    have := h1 x.1 x.2 hx.1.1 ⟨hx.1.2, hx.2⟩
    exact ⟨⟨hx.1.1, this.1⟩, this.2⟩
  · intro L hL
    refine (cellCover_cuts hmd.tree hL hn0).whole ?_ (nonneg_dCells h0 (by omega))
    exact (leaves_nonempty hmd.tree hmd.tree.rootLt).product (Finset.nonempty_Icc.mpr (Nat.zero_le _))
  · intro L hL h1
    refine finest_zero (fun r hr => ⟨(r.node, r.first), ?_⟩)
    obtain ⟨h2, h3⟩ := h1 r hr
    simp [dCells, leavesUnder_leaf hmd.tree h2, ← h3]

/-- `[0,1] [2,2]` refines `[0,2]`; the data 1, 1, 2 meet the hypotheses of `ordered`. -/
example : Tiles 0 3 [(0, 1), (2, 2)] ∧ Tiles 0 3 [(0, 2)] ∧ (∀ I ∈ [(0, 1), (2, 2)], ∃ J ∈ [(0, 2)], J.1 ≤ I.1 ∧ I.2 ≤ J.2) ∧
    OData (OValuesN1.ofVec [1, 1, 2]).toOValues 1 3 (fun _ i => if i = 2 then (2 : ℝ) else 1) :=
  ⟨.cons (by decide) (by decide) (.cons (by decide) (by decide) (.nil 3)), .cons (by decide) (by decide) (.nil 3),
    by decide, (OValuesN1.ofVec_holds (O := 3) (fun i => if i = 2 then (2 : ℝ) else 1)).data⟩

/-! ## The hypotheses are met by concrete inputs (`Proofs/Samples.lean`) -/

example := ordered Sample.oV 2 3 _ Sample.o (by decide) (by decide) Sample.o_nonneg
example := hierarchical 4 Sample.tree Sample.hV Sample.right (by decide) 2 _ Sample.h Sample.h_nonneg
example := spatiotemporal 4 Sample.tree Sample.dV Sample.right (by decide) 2 3 (by decide) (by decide) (by decide) _ Sample.d Sample.d_nonneg

end Lp.C09
