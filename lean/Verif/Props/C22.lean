import Verif.Proofs.CoarseFirst
import Verif.Proofs.Extreme
import Verif.Props.C05
import Verif.Props.C06
import Verif.Props.C07
import Verif.Props.C21
import Verif.Props.C19
import Verif.Proofs.Samples

/-!
# C22 — the extreme parameters

For the entropy qualities `Q` of non-negative data.  `FloatLaws`: the parameter arithmetic, of which only `1-0 = 1` and `1-1 = 0`
are used.
-/

namespace Lp.C22
open Spec
variable {F : Type} [FloatP F ℝ] {u : ℝ}

/-- Ordered data.  At `p = 0` nothing is lost and no lossless tiling has more gain; at `p = 1` the gain is that of the whole
and no tiling of that gain has less loss. -/
theorem ordered (fl : FloatLaws F ℝ u) (v : OValues ℝ) (m n : Nat) (V : Nat → Nat → ℝ) (hv : OData v m n V) (hn0 : 0 < n)
    (hn : n ≤ 65535) (h0 : ∀ k i, k < m → i < n → 0 ≤ V k i) :
    ∃ (q : UTM (Quality ℝ)) (Q : Nat × Nat → Quality ℝ),
      (OQualities.ofValues v).computeQualities = .ok ⟨some v, some q⟩ ∧
      (∀ i j, i ≤ j → j < n → q.get i j = .ok (Q (i, j))) ∧
      (∀ p : F, (FloatP.toK p : ℝ) = 0 → ∃ P, oBestPartition q p = .ok P ∧ P.quality.loss = 0 ∧
        ∀ L', Tiles 0 n L' → lossOf Q L' = 0 → gainOf Q L' ≤ P.quality.gain) ∧
      (∀ p : F, (FloatP.toK p : ℝ) = 1 → ∃ P, oBestPartition q p = .ok P ∧ P.quality.gain = (Q (0, n - 1)).gain ∧
        ∀ L', Tiles 0 n L' → gainOf Q L' = (Q (0, n - 1)).gain → P.quality.loss ≤ lossOf Q L') := by
  obtain ⟨q, e, hq⟩ := oq_object hv hn h0
  have hc : ∀ ds L, Sol (oDecs n) (oStart n 0) ds L → Cuts oCells L (oCells (0, n - 1)) :=
    fun ds L hs => tiles_cuts (oSol_tiles hs 0 rfl (by omega)) hn0
  have hnn : ∀ k < m, ∀ x ∈ oCells (0, n - 1), 0 ≤ V k x := nonneg_oCells h0 (by omega)
  refine ⟨q, fun I => entQ m V (oCells I), e, fun i j hij hj => hq.get hij hj, fun p hp => ?_, fun p hp => ?_⟩
  · obtain ⟨P, ds, L, e1, e2, e3, _, e5⟩ := oBest_lex hq p
    rw [show (wGain p : ℝ) = 0 from hp, show (wLoss p : ℝ) = 1 from fl.oneSub_zero p hp] at e5
    have key := fun ds' L' hs hz => LexFirst.atZero (cells := oCells) (ds' := ds') (L' := L') e5 hc hnn hs hz
    obtain ⟨ds1, s1⟩ := tiles_oSol (singles_tiles n 0 (by omega))
    refine ⟨P, e1, ?_, fun L' hL' hz => ?_⟩
    · rw [e3]
      refine (key ds1 _ s1 (finest_zero (fun I hI => ?_)).2).1
      obtain ⟨i, _, rfl⟩ := List.mem_map.mp hI
      exact ⟨i, by simp [oCells]⟩
    · obtain ⟨ds', s'⟩ := tiles_oSol hL'
      rw [e3]
      exact (key ds' L' s' hz).2
  · obtain ⟨P, ds, L, e1, e2, e3, _, e5⟩ := oBest_lex hq p
    rw [show (wGain p : ℝ) = 1 from hp, show (wLoss p : ℝ) = 0 from fl.oneSub_one p hp] at e5
    have key := LexFirst.atOne (cells := oCells) e5 hc hnn (oWhole_sol hn0) rfl (by simp [oCells])
    refine ⟨P, e1, by rw [e3]; exact key.1, fun L' hL' hg => ?_⟩
    obtain ⟨ds', s'⟩ := tiles_oSol hL'
    rw [e3]
    exact key.2 ds' L' s' hg

/-- Hierarchical data.  At `p = 0` nothing is lost, every lossless partition of the leaves into nodes refines the returned one
and has at most its gain; at `p = 1` the single root is returned. -/
theorem hierarchical (fl : FloatLaws F ℝ u) (leaves : Nat) (parents : List Int) (v : HValues ℝ)
    (hmd : RightMeta leaves parents v.md) (hlt : leaves < parents.length) (m : Nat) (V : Nat → Nat → ℝ)
    (hv : HData v m leaves V) (h0 : ∀ k h, k < m → h < leaves → 0 ≤ V k h) :
    ∃ (q : List (Quality ℝ)) (Q : Nat → Quality ℝ),
      (HQualities.ofValues v).computeQualities = .ok ⟨some v, some q, v.md⟩ ∧
      (∀ h, h < parents.length → q[h]? = some (Q h)) ∧
      (∀ p : F, (FloatP.toK p : ℝ) = 0 → ∃ P, hBestPartition q v.md p = .ok P ∧ P.quality.loss = 0 ∧
        ∀ L', LeafCover leaves parents L' → lossOf Q L' = 0 →
          Refines parents L' (P.parts.map HPart.h) ∧ gainOf Q L' ≤ P.quality.gain) ∧
      (∀ p : F, (FloatP.toK p : ℝ) = 1 → ∃ P, hBestPartition q v.md p = .ok P ∧ P.parts.map HPart.h = [v.md.root] ∧
        P.quality = Q v.md.root) := by
  obtain ⟨q, e, hq⟩ := hq_object hmd hlt hv h0
  have hc : ∀ ds L, Sol (hDecs leaves v.md.children) [v.md.root] ds L →
      Cuts (leavesUnder leaves parents) L (leavesUnder leaves parents v.md.root) :=
    fun ds L hs => leafCover_cuts hmd.tree (hSol_leafCover hmd hs)
  have hnn : ∀ k < m, ∀ x ∈ leavesUnder leaves parents v.md.root, 0 ≤ V k x := nonneg_hCells h0
  refine ⟨q, fun h => entQ m V (leavesUnder leaves parents h), e, fun h hh => hq.cell h hh, fun p hp => ?_, fun p hp => ?_⟩
  · obtain ⟨P, L, e1, e2, e3, e4, e5⟩ := C19.optimal leaves parents v.md hmd hlt q _ hq p
    rw [hp, fl.oneSub_zero p hp] at e5
    have hl : lossOf (fun h => entQ m V (leavesUnder leaves parents h)) L = 0 := by
      have h1 := (e5 _ (leaves_cover hmd.tree)).1
      have h2 := ((leafCover_cuts hmd.tree e2).nonneg hnn).2
      unfold valueOf at h1
      rw [(finest_zero (m := m) (V := V) (cells := leavesUnder leaves parents) (L := List.range leaves)
        (fun h hh => ⟨h, leavesUnder_leaf hmd.tree (List.mem_range.mp hh)⟩)).2] at h1
      linarith
    have hparts : P.parts.map HPart.h = L := by
      have := congrArg (List.map Prod.fst) e3
      simpa [List.map_map, Function.comp_def] using this
    refine ⟨P, e1, by rw [e4]; exact hl, fun L' hL' hz => ?_⟩
    have hr : Refines parents L' L := (e5 L' hL').2 (by unfold valueOf; rw [hz, hl]; ring)
    refine ⟨by rw [hparts]; exact hr, ?_⟩
    rw [e4]
    refine ((leafCover_cuts hmd.tree hL').coarsen (leafCover_cuts hmd.tree e2) (fun x hx => ?_) hnn).1
    obtain ⟨y, hy, h1⟩ := hr x hx
    exact ⟨y, hy, under_sub h1⟩
  · obtain ⟨P, ds, L, e1, e2, e3, _, e5, _⟩ := hBest_first hmd hlt hq p
    rw [show (wGain p : ℝ) = 1 from hp, show (wLoss p : ℝ) = 0 from fl.oneSub_one p hp] at e5
    have hL : L = [v.md.root] := ValFirst.atOne (cells := leavesUnder leaves parents) e5 hc hnn hWhole_sol rfl
      (leaves_nonempty hmd.tree hmd.tree.rootLt)
    subst hL
    exact ⟨P, e1, by rw [e2]; rfl, by rw [e3]; simp⟩

/-- Spatiotemporal data.  At `p = 0` nothing is lost, and no lossless coarse-first partition (C21) has more gain; at
`p = 1` the gain is that of the whole, the largest of all partitions, and no coarse-first partition with that gain has
less loss. -/
theorem spatiotemporal (fl : FloatLaws F ℝ u) (leaves : Nat) (parents : List Int) (v : DValues ℝ)
    (hmd : RightMeta leaves parents v.md) (hlt : leaves < parents.length) (m n : Nat) (hn0 : 0 < n) (hn : n ≤ 65535)
    (hb : leaves * n < 2147483648) (V : Nat → Nat × Nat → ℝ) (hv : DData v m leaves n V)
    (h0 : ∀ k h x, k < m → h < leaves → x < n → 0 ≤ V k (h, x)) :
    ∃ (q : List (UTM (Quality ℝ))) (Q : Rect → Quality ℝ),
      (DQualities.ofValues v).computeQualities = .ok ⟨some v, some q, v.md⟩ ∧
      (∀ h i j, h < parents.length → i ≤ j → j < n → mget q h i j = .ok (Q ⟨h, i, j⟩)) ∧
      (∀ p : F, (FloatP.toK p : ℝ) = 0 → ∃ P, dBestPartition q v.md p = .ok P ∧ P.quality.loss = 0 ∧
        ∀ L', CellCover leaves parents n L' → CoarseFirst parents L' → lossOf Q L' = 0 → gainOf Q L' ≤ P.quality.gain) ∧
      (∀ p : F, (FloatP.toK p : ℝ) = 1 → ∃ P, dBestPartition q v.md p = .ok P ∧
        P.quality.gain = (Q ⟨v.md.root, 0, n - 1⟩).gain ∧
        (∀ L', CellCover leaves parents n L' → gainOf Q L' ≤ P.quality.gain) ∧
        ∀ L', CellCover leaves parents n L' → CoarseFirst parents L' → gainOf Q L' = P.quality.gain → P.quality.loss ≤ lossOf Q L') := by
  obtain ⟨q, e, hq⟩ := dq_object hmd hlt hn hb hv h0
  have hc : ∀ ds L, Sol (dDecs leaves v.md.children n) [(v.md.root, 0)] ds L →
      Cuts (dCells leaves parents) L (dCells leaves parents ⟨v.md.root, 0, n - 1⟩) :=
    fun ds L hs => cellCover_cuts hmd.tree (dSol_cellCover hmd hn0 hs) hn0
  have hnn : ∀ k < m, ∀ x ∈ dCells leaves parents ⟨v.md.root, 0, n - 1⟩, 0 ≤ V k x := nonneg_dCells h0 (by omega)
  have hne : (dCells leaves parents ⟨v.md.root, 0, n - 1⟩).Nonempty :=
    (leaves_nonempty hmd.tree hmd.tree.rootLt).product (Finset.nonempty_Icc.mpr (Nat.zero_le _))
  refine ⟨q, fun r => entQ m V (dCells leaves parents r), e, fun h i j hh hij hj => hq.get hh hij hj, fun p hp => ?_,
    fun p hp => ?_⟩
  · obtain ⟨P, ds, L, e1, e2, e3, _, e5⟩ := dBest_first hmd hq hn0 hn p
    rw [show (wGain p : ℝ) = 0 from hp, show (wLoss p : ℝ) = 1 from fl.oneSub_zero p hp] at e5
    have key := fun ds' L' hs hz => LexFirst.atZero (cells := dCells leaves parents) (ds' := ds') (L' := L') e5 hc hnn hs hz
    refine ⟨P, e1, ?_, fun L' hL' hcf hz => ?_⟩
    · obtain ⟨ds1, L1, s1, p1⟩ := product_dSol hmd hn0 (leaves_cover hmd.tree)
        (tiling := fun _ => (List.range' 0 (n - 0)).map (fun i => (i, i))) (fun h _ => singles_tiles n 0 (by omega))
      rw [e3]
      refine (key ds1 L1 s1 (finest_zero (fun r hr => ?_)).2).1
      rw [p1.mem_iff, List.mem_flatMap] at hr
      obtain ⟨h, hh, hr⟩ := hr
      obtain ⟨I, hI, rfl⟩ := List.mem_map.mp hr
      obtain ⟨i, _, rfl⟩ := List.mem_map.mp hI
      exact ⟨(h, i), by simp [dCells, leavesUnder_leaf hmd.tree (List.mem_range.mp hh)]⟩
    · obtain ⟨ds', L'', s', p'⟩ := coarse_dSol hmd hn0 hL' hcf
      have hg : gainOf (fun r => entQ m V (dCells leaves parents r)) L'' = gainOf (fun r => entQ m V (dCells leaves parents r)) L' := by
        unfold gainOf; rw [(p'.map _).sum_eq]
      have hl : lossOf (fun r => entQ m V (dCells leaves parents r)) L'' = lossOf (fun r => entQ m V (dCells leaves parents r)) L' := by
        unfold lossOf; rw [(p'.map _).sum_eq]
      rw [e3, ← hg]
      exact (key ds' L'' s' (by rw [hl]; exact hz)).2
  · obtain ⟨P, ds, L, e1, e2, e3, _, e5⟩ := dBest_first hmd hq hn0 hn p
    rw [show (wGain p : ℝ) = 1 from hp, show (wLoss p : ℝ) = 0 from fl.oneSub_one p hp] at e5
    have key := LexFirst.atOne (cells := dCells leaves parents) e5 hc hnn dWhole_sol rfl hne
    have hgain : P.quality.gain = (entQ m V (dCells leaves parents ⟨v.md.root, 0, n - 1⟩)).gain := by rw [e3]; exact key.1
    refine ⟨P, e1, hgain, fun L' hL' => ?_, fun L' hL' hcf hz => ?_⟩
    · rw [hgain]
      exact ((cellCover_cuts hmd.tree hL' hn0).whole hne hnn).1
    · obtain ⟨ds', L'', s', p'⟩ := coarse_dSol hmd hn0 hL' hcf
      have hg : gainOf (fun r => entQ m V (dCells leaves parents r)) L'' = gainOf (fun r => entQ m V (dCells leaves parents r)) L' := by
        unfold gainOf; rw [(p'.map _).sum_eq]
      have hl : lossOf (fun r => entQ m V (dCells leaves parents r)) L'' = lossOf (fun r => entQ m V (dCells leaves parents r)) L' := by
        unfold lossOf; rw [(p'.map _).sum_eq]
      rw [hgain] at hz
      rw [e3, ← hl]
      exact key.2 ds' L'' s' (by rw [hg]; exact hz)

/-- The hypotheses are met by the values 1, 1, 2 and exact parameters. -/
example : ∃ w q P0 P1, (OQualities.ofValues (OValuesN1.ofVec ([1, 1, 2] : List ℝ)).toOValues).computeQualities = .ok ⟨w, some q⟩ ∧
    oBestPartition q (0 : ℝ) = .ok P0 ∧ P0.quality.loss = 0 ∧ oBestPartition q (1 : ℝ) = .ok P1 := by
  have hd : OData (OValuesN1.ofVec ([1, 1, 2] : List ℝ)).toOValues 1 3 (fun _ i => if i = 2 then (2 : ℝ) else 1) :=
    (OValuesN1.ofVec_holds (O := 3) (fun i => if i = 2 then (2 : ℝ) else 1)).data
  obtain ⟨q, Q, h1, _, h2, h3⟩ := ordered (exactLaws ℝ) _ 1 3 _ hd (by norm_num) (by norm_num)
    (fun k i _ _ => by split <;> norm_num)
  obtain ⟨P0, e0, l0, _⟩ := h2 0 rfl
  obtain ⟨P1, e1, _, _⟩ := h3 1 rfl
  exact ⟨_, q, P0, P1, h1, e0, l0, e1⟩

/-! ## The hypotheses are met by concrete inputs (`Proofs/Samples.lean`) -/

example := hierarchical (exactLaws ℝ) 4 Sample.tree Sample.hV Sample.right (by decide) 2 _ Sample.h Sample.h_nonneg
example := spatiotemporal (exactLaws ℝ) 4 Sample.tree Sample.dV Sample.right (by decide) 2 3 (by decide) (by decide) (by decide) _ Sample.d Sample.d_nonneg

end Lp.C22
