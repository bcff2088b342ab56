import Verif.Proofs.Reparam
import Verif.Proofs.Ent
import Verif.Props.C11
import Verif.Props.C12
import Verif.Props.C21
import Verif.Proofs.Samples

/-!
# C62 — normalisation only changes the scale of the parameter

Exact arithmetic.  After `normalize()` the best partition for `p` consists of the parts of the best partition of the qualities
before `normalize()` for the parameter `reparam G L p`, where `G`, `L` are the gain and loss of the whole
(`Spec/Reparam.lean`); this map is a strictly increasing bijection of `[0,1]` (`parameter`).  So normalising neither adds nor
loses partitions.  For hierarchies the root has to have the highest number (C12); otherwise normalising does change the
partitions (`aboveRoot`).
-/

namespace Lp.C62
open Spec
variable {K : Type} [Field K] [LinearOrder K] [IsStrictOrderedRing K]

/-- The map of the parameters is a strictly increasing bijection of `[0,1]`. -/
theorem parameter (G L : K) (hG : 0 < G) (hL : 0 < L) :
    reparam G L 0 = 0 ∧ reparam G L 1 = 1 ∧
    (∀ p, 0 ≤ p → p ≤ 1 → 0 ≤ reparam G L p ∧ reparam G L p ≤ 1) ∧
    (∀ p p', 0 ≤ p → p < p' → p' ≤ 1 → reparam G L p < reparam G L p') ∧
    (∀ r, 0 ≤ r → r ≤ 1 → ∃ p, 0 ≤ p ∧ p ≤ 1 ∧ reparam G L p = r) := by
  refine ⟨by simp [reparam], by simp [reparam, hL.ne'], fun p h0 h1 => reparam_unit hG hL h0 h1,
    fun p p' h0 h h1 => reparam_lt hG hL h0 h h1, fun r h0 h1 => ?_⟩
  exact ⟨reparam L G r, (reparam_unit hL hG h0 h1).1, (reparam_unit hL hG h0 h1).2, reparam_inv hL hG h0 h1⟩

/-- Ordered qualities. -/
theorem ordered (v : OValues K) (n : Nat) (hv : v.osize = n) (h0 : 0 < n) (q : UTM (Quality K)) (f : Nat → Nat → Quality K)
    (hq : q.Rep n f) (hG : 0 < (f 0 (n - 1)).gain) (hL : 0 < (f 0 (n - 1)).loss) :
    let G := (f 0 (n - 1)).gain
    let L := (f 0 (n - 1)).loss
    ∃ q', (OQualities.mk (some v) (some q)).normalize = .ok ⟨some v, some q'⟩ ∧
      ∀ p : K, 0 ≤ p → p ≤ 1 → ∃ P P' : OPartition K K,
        oBestPartition q (reparam G L p) = .ok P ∧ oBestPartition q' p = .ok P' ∧
        P'.parts = P.parts.map (fun x => ⟨x.start, x.end, ⟨x.quality.gain / G, x.quality.loss / L⟩⟩) ∧
        P'.quality = ⟨P.quality.gain / G, P.quality.loss / L⟩ := by
  intro G L
  obtain ⟨q', e, h⟩ := oqNormalize_spec hq h0
  refine ⟨q', oNormalize_object hv h0 e, fun p hp0 hp1 => ?_⟩
  exact oBest_reweight hq h (prop2_reparam hG hL hp0 hp1)

theorem nDiv_root_aux {md : HMeta} {N : Nat} (hr : md.root = N - 1) {h : Nat} (hh : h < N) (R : Quality K) :
    nDiv (md.root < h) R = R := by
  unfold nDiv
  rw [if_neg (by omega)]

/-- Hierarchical qualities, root with the highest number. -/
theorem hierarchical (leaves : Nat) (parents : List Int) (md : HMeta) (hmd : RightMeta leaves parents md)
    (hlt : leaves < parents.length) (hroot : md.root = parents.length - 1) (v : Option (HValues K))
    (q : List (Quality K)) (Q : Nat → Quality K) (hq : VRep q parents.length Q)
    (hG : 0 < (Q md.root).gain) (hL : 0 < (Q md.root).loss) :
    let G := (Q md.root).gain
    let L := (Q md.root).loss
    ∃ q', (HQualities.mk v (some q) md).normalize = .ok ⟨v, some q', md⟩ ∧
      ∀ p : K, 0 ≤ p → p ≤ 1 → ∃ P P' : HPartition K K,
        hBestPartition q md (reparam G L p) = .ok P ∧ hBestPartition q' md p = .ok P' ∧
        P'.parts = P.parts.map (fun x => ⟨x.h, x.size, ⟨x.quality.gain / G, x.quality.loss / L⟩⟩) ∧
        P'.quality = ⟨P.quality.gain / G, P.quality.loss / L⟩ := by
  intro G L
  obtain ⟨q', e, h⟩ := hqNormalize_spec hq hmd.tree.rootLt
  refine ⟨q', hNormalize_object e, fun p hp0 hp1 => ?_⟩
  refine hBest_reweight hmd hlt hq (h.congr (fun x hx => ?_)) (prop2_reparam hG hL hp0 hp1)
  rw [nDiv_root_aux hroot hx]

/-- Spatiotemporal qualities, root with the highest number. -/
theorem spatiotemporal (leaves : Nat) (parents : List Int) (md : HMeta) (hmd : RightMeta leaves parents md)
    (hroot : md.root = parents.length - 1) (n : Nat) (h0 : 0 < n) (hn : n ≤ 65535) (v : DValues K) (hv : v.osize = n)
    (q : List (UTM (Quality K))) (Q : Nat → Nat → Nat → Quality K) (hq : MRep q parents.length n Q)
    (hG : 0 < (Q md.root 0 (n - 1)).gain) (hL : 0 < (Q md.root 0 (n - 1)).loss) :
    let G := (Q md.root 0 (n - 1)).gain
    let L := (Q md.root 0 (n - 1)).loss
    ∃ q', (DQualities.mk (some v) (some q) md).normalize = .ok ⟨some v, some q', md⟩ ∧
      ∀ p : K, 0 ≤ p → p ≤ 1 → ∃ P P' : DPartition K K,
        dBestPartition q md (reparam G L p) = .ok P ∧ dBestPartition q' md p = .ok P' ∧
        P'.parts = P.parts.map (fun x => { x with quality := ⟨x.quality.gain / G, x.quality.loss / L⟩ }) ∧
        P'.quality = ⟨P.quality.gain / G, P.quality.loss / L⟩ := by
  intro G L
  obtain ⟨q', e, h⟩ := dqNormalize_spec hq hmd.tree.rootLt hmd.hsize h0 hn
  refine ⟨q', dNormalize_object hv h0 e, fun p hp0 hp1 => ?_⟩
  refine dBest_reweight hmd h0 hn hq (h.congr (fun x i j hx _ _ => ?_)) (prop2_reparam hG hL hp0 hp1)
  rw [nDiv_root_aux hroot hx]

/-- So the sets of partitions (as sets of lists of intervals) that some parameter of `[0,1]` gives are the same before and
after `normalize()`: ordered data that are not negative and whose whole has neither gain 0 nor loss 0. -/
theorem orderedFamily (v : OValues ℝ) (m n : Nat) (V : Nat → Nat → ℝ) (hv : OData v m n V) (h0 : 0 < n) (hn : n ≤ 65535)
    (hpos : ∀ k i, k < m → i < n → 0 ≤ V k i) (hg : gainSeries m (Finset.Icc 0 (n - 1)) V ≠ 0)
    (hl : lossSeries m (Finset.Icc 0 (n - 1)) V ≠ 0) :
    ∃ q q' : UTM (Quality ℝ), (OQualities.ofValues v).computeQualities = .ok ⟨some v, some q⟩ ∧
      ((OQualities.ofValues v).computeQualities >>= OQualities.normalize) = .ok ⟨some v, some q'⟩ ∧
      ∀ I : List (Int × Int),
        (∃ p : ℝ, 0 ≤ p ∧ p ≤ 1 ∧ ∃ P : OPartition ℝ ℝ, oBestPartition q p = .ok P ∧ P.parts.map (fun x => (x.start, x.end)) = I) ↔
        (∃ p : ℝ, 0 ≤ p ∧ p ≤ 1 ∧ ∃ P : OPartition ℝ ℝ, oBestPartition q' p = .ok P ∧ P.parts.map (fun x => (x.start, x.end)) = I) := by
  obtain ⟨q, e, hq⟩ := oq_object hv hn hpos
  have pos := nonneg_oCells (i := 0) hpos (show n - 1 < n by omega)
  have hG : 0 < (entQ m V (oCells (0, n - 1))).gain := lt_of_le_of_ne (gainSeries_nonneg pos) (Ne.symm hg)
  have hL : 0 < (entQ m V (oCells (0, n - 1))).loss := lt_of_le_of_ne (lossSeries_nonneg pos) (Ne.symm hl)
  obtain ⟨q', e', h⟩ := ordered v n hv.osize h0 q _ hq hG hL
  refine ⟨q, q', e, by rw [e]; exact e', fun I => ⟨?_, ?_⟩⟩
  · rintro ⟨r, r0, r1, P, hP, hI⟩
    obtain ⟨p, p0, p1, rfl⟩ := (parameter _ _ hG hL).2.2.2.2 r r0 r1
    obtain ⟨P0, P', h1, h2, h3, _⟩ := h p p0 p1
    rw [hP] at h1
    obtain rfl := Except.ok.inj h1
    exact ⟨p, p0, p1, P', h2, by rw [h3, List.map_map, ← hI]; rfl⟩
  · rintro ⟨p, p0, p1, P, hP, hI⟩
    obtain ⟨P0, P', h1, h2, h3, _⟩ := h p p0 p1
    rw [hP] at h2
    obtain rfl := Except.ok.inj h2
    have u := reparam_unit hG hL p0 p1
    exact ⟨_, u.1, u.2, P0, h1, by rw [h3, List.map_map] at hI; rw [← hI]; rfl⟩

/-- The same for hierarchical data. -/
theorem hierarchicalFamily (leaves : Nat) (parents : List Int) (v : HValues ℝ) (hmd : RightMeta leaves parents v.md)
    (hlt : leaves < parents.length) (hroot : v.md.root = parents.length - 1) (m : Nat) (V : Nat → Nat → ℝ)
    (hv : HData v m leaves V) (h0 : ∀ k h, k < m → h < leaves → 0 ≤ V k h)
    (hg : gainSeries m (Finset.range leaves) V ≠ 0) (hl : lossSeries m (Finset.range leaves) V ≠ 0) :
    ∃ q q' : List (Quality ℝ), (HQualities.ofValues v).computeQualities = .ok ⟨some v, some q, v.md⟩ ∧
      ((HQualities.ofValues v).computeQualities >>= HQualities.normalize) = .ok ⟨some v, some q', v.md⟩ ∧
      ∀ I : List Nat,
        (∃ p : ℝ, 0 ≤ p ∧ p ≤ 1 ∧ ∃ P : HPartition ℝ ℝ, hBestPartition q v.md p = .ok P ∧ P.parts.map (fun x => x.h) = I) ↔
        (∃ p : ℝ, 0 ≤ p ∧ p ≤ 1 ∧ ∃ P : HPartition ℝ ℝ, hBestPartition q' v.md p = .ok P ∧ P.parts.map (fun x => x.h) = I) := by
  obtain ⟨q, e, hq⟩ := hq_object hmd hlt hv h0
  have er := leavesUnder_root hmd.tree
  have pos : ∀ k < m, ∀ x ∈ leavesUnder leaves parents v.md.root, 0 ≤ V k x := nonneg_hCells h0
  have hG : 0 < (entQ m V (leavesUnder leaves parents v.md.root)).gain :=
    lt_of_le_of_ne (gainSeries_nonneg pos) (Ne.symm (by simp only [entQ, er]; exact hg))
  have hL : 0 < (entQ m V (leavesUnder leaves parents v.md.root)).loss :=
    lt_of_le_of_ne (lossSeries_nonneg pos) (Ne.symm (by simp only [entQ, er]; exact hl))
  obtain ⟨q', e', h⟩ := hierarchical leaves parents v.md hmd hlt hroot (some v) q _ hq hG hL
  refine ⟨q, q', e, by rw [e]; exact e', fun I => ⟨?_, ?_⟩⟩
  · rintro ⟨r, r0, r1, P, hP, hI⟩
    obtain ⟨p, p0, p1, rfl⟩ := (parameter _ _ hG hL).2.2.2.2 r r0 r1
    obtain ⟨P0, P', h1, h2, h3, _⟩ := h p p0 p1
    rw [hP] at h1
    obtain rfl := Except.ok.inj h1
    exact ⟨p, p0, p1, P', h2, by rw [h3, List.map_map, ← hI]; rfl⟩
  · rintro ⟨p, p0, p1, P, hP, hI⟩
    obtain ⟨P0, P', h1, h2, h3, _⟩ := h p p0 p1
    rw [hP] at h2
    obtain rfl := Except.ok.inj h2
    have u := reparam_unit hG hL p0 p1
    exact ⟨_, u.1, u.2, P0, h1, by rw [h3, List.map_map] at hI; rw [← hI]; rfl⟩

/-- The same for spatiotemporal data. -/
theorem spatiotemporalFamily (leaves : Nat) (parents : List Int) (v : DValues ℝ) (hmd : RightMeta leaves parents v.md)
    (hlt : leaves < parents.length) (hroot : v.md.root = parents.length - 1) (m n : Nat) (hn0 : 0 < n) (hn : n ≤ 65535)
    (hb : leaves * n < 2147483648) (V : Nat → Nat × Nat → ℝ) (hv : DData v m leaves n V)
    (h0 : ∀ k h x, k < m → h < leaves → x < n → 0 ≤ V k (h, x))
    (hg : gainSeries m (Finset.range leaves ×ˢ Finset.Icc 0 (n - 1)) V ≠ 0)
    (hl : lossSeries m (Finset.range leaves ×ˢ Finset.Icc 0 (n - 1)) V ≠ 0) :
    ∃ q q' : List (UTM (Quality ℝ)), (DQualities.ofValues v).computeQualities = .ok ⟨some v, some q, v.md⟩ ∧
      ((DQualities.ofValues v).computeQualities >>= DQualities.normalize) = .ok ⟨some v, some q', v.md⟩ ∧
      ∀ I : List (Nat × Nat × Nat),
        (∃ p : ℝ, 0 ≤ p ∧ p ≤ 1 ∧ ∃ P : DPartition ℝ ℝ, dBestPartition q v.md p = .ok P ∧
          P.parts.map (fun x => (x.h, x.start, x.end)) = I) ↔
        (∃ p : ℝ, 0 ≤ p ∧ p ≤ 1 ∧ ∃ P : DPartition ℝ ℝ, dBestPartition q' v.md p = .ok P ∧
          P.parts.map (fun x => (x.h, x.start, x.end)) = I) := by
  obtain ⟨q, e, hq⟩ := dq_object hmd hlt hn hb hv h0
  have er := leavesUnder_root hmd.tree
  have pos : ∀ k < m, ∀ x ∈ dCells leaves parents ⟨v.md.root, 0, n - 1⟩, 0 ≤ V k x := nonneg_dCells h0 (by omega)
  have hG : 0 < (entQ m V (dCells leaves parents ⟨v.md.root, 0, n - 1⟩)).gain :=
    lt_of_le_of_ne (gainSeries_nonneg pos) (Ne.symm (by simp only [entQ, dCells, er]; exact hg))
  have hL : 0 < (entQ m V (dCells leaves parents ⟨v.md.root, 0, n - 1⟩)).loss :=
    lt_of_le_of_ne (lossSeries_nonneg pos) (Ne.symm (by simp only [entQ, dCells, er]; exact hl))
  obtain ⟨q', e', h⟩ := spatiotemporal leaves parents v.md hmd hroot n hn0 hn v hv.osize q _ hq hG hL
  refine ⟨q, q', e, by rw [e]; exact e', fun I => ⟨?_, ?_⟩⟩
  · rintro ⟨r, r0, r1, P, hP, hI⟩
    obtain ⟨p, p0, p1, rfl⟩ := (parameter _ _ hG hL).2.2.2.2 r r0 r1
    obtain ⟨P0, P', h1, h2, h3, _⟩ := h p p0 p1
    rw [hP] at h1
    obtain rfl := Except.ok.inj h1
    exact ⟨p, p0, p1, P', h2, by rw [h3, List.map_map, ← hI]; rfl⟩
  · rintro ⟨p, p0, p1, P, hP, hI⟩
    obtain ⟨P0, P', h1, h2, h3, _⟩ := h p p0 p1
    rw [hP] at h2
    obtain rfl := Except.ok.inj h2
    have u := reparam_unit hG hL p0 p1
    exact ⟨_, u.1, u.2, P0, h1, by rw [h3, List.map_map] at hI; rw [← hI]; rfl⟩

/-! ## Examples -/

/-- The data `2 1` meet the hypotheses. -/
theorem exFamily : ∃ q q' : UTM (Quality ℝ),
    (OQualities.ofValues (OValuesN1.ofVec [2, 1] : OValuesN1 ℝ).toOValues).computeQualities =
      .ok ⟨some (OValuesN1.ofVec [2, 1]).toOValues, some q⟩ ∧
    ((OQualities.ofValues (OValuesN1.ofVec [2, 1] : OValuesN1 ℝ).toOValues).computeQualities >>= OQualities.normalize) =
      .ok ⟨some (OValuesN1.ofVec [2, 1]).toOValues, some q'⟩ ∧
    ∀ I : List (Int × Int),
      (∃ p : ℝ, 0 ≤ p ∧ p ≤ 1 ∧ ∃ P : OPartition ℝ ℝ, oBestPartition q p = .ok P ∧ P.parts.map (fun x => (x.start, x.end)) = I) ↔
      (∃ p : ℝ, 0 ≤ p ∧ p ≤ 1 ∧ ∃ P : OPartition ℝ ℝ, oBestPartition q' p = .ok P ∧ P.parts.map (fun x => (x.start, x.end)) = I) := by
  let f : Nat → ℝ := fun i => if i = 0 then 2 else 1
  have hf : table1 2 f = [2, 1] := by simp [table1, f, List.range_succ]
  have d := (OValuesN1.ofVec_holds (O := 2) f).data
  rw [hf] at d
  have l3 := C21.log3_aux
  have l3' : 1 ≤ Real.logb 2 3 := by
    rw [Real.le_logb_iff_rpow_le (by norm_num) (by norm_num)]; norm_num
  have log2 : Real.logb 2 2 = 1 := Real.logb_self_eq_one (by norm_num)
  have c : (Finset.Icc 0 (2 - 1) : Finset Nat) = {0, 1} := by decide
  refine orderedFamily _ 1 2 _ d (by norm_num) (by norm_num) (fun k i _ _ => ?_) ?_ ?_
  · dsimp only [f]; split <;> norm_num
  · unfold gainSeries gainOver xlog2
    rw [c]
    simp [f]
    norm_num [log2]
    intro h; linarith
  · unfold lossSeries lossOver gainOver xlog2
    rw [c]
    simp [f]
    norm_num [log2]
    intro h; linarith

/-- A hierarchy with nodes numbered above the root: the root 4 has the children 5 and 6, these have two leaves each. -/
def exQ : List (Quality ℚ) := [⟨0, 0⟩, ⟨0, 0⟩, ⟨0, 0⟩, ⟨0, 0⟩, ⟨100, 100⟩, ⟨2, 21 / 10⟩, ⟨0, 1⟩]

/-- Node 5 keeps its quality, the root gets (1,1): at `p = 3/5` (and `reparam 100 100 (3/5) = 3/5`) the partition is the whole before
`normalize()` and node 5 with leaves 2 and 3 after it. -/
theorem aboveRoot :
    (do let md ← mkMeta 4 [5, 5, 6, 6, -1, 4, 4]
        let o ← (HQualities.mk none (some exQ) md).normalize
        let P ← hBestPartition exQ md (reparam 100 100 (3 / 5) : ℚ)
        let P' ← hBestPartition (o.qualities.getD []) md (3 / 5 : ℚ)
        return (P.parts.map (fun x => x.h), P'.parts.map (fun x => x.h)) : Res (List Int × List Int)) =
      .ok ([4], [5, 2, 3]) := by
  decide +kernel

/-! ## The hypotheses are met by concrete inputs (`Proofs/Samples.lean`) -/

example := parameter (3 : ℚ) 5 (by norm_num) (by norm_num)
example := ordered (Sample.oOf fun _ _ => (1 : ℚ)) 3 rfl (by decide) Sample.oQ _ Sample.oRep (by decide +kernel) (by decide +kernel)
example := hierarchical 4 Sample.tree Sample.md Sample.right (by decide) Sample.root none Sample.hQ _ Sample.hRep (by rw [Sample.root]; decide +kernel) (by rw [Sample.root]; decide +kernel)
example := spatiotemporal 4 Sample.tree Sample.md Sample.right Sample.root 3 (by decide) (by decide) (Sample.dOf fun _ _ => (1 : ℚ)) rfl Sample.dQ _ Sample.dRep
  (by rw [Sample.root]; decide +kernel) (by rw [Sample.root]; decide +kernel)
example := orderedFamily Sample.oV 2 3 _ Sample.o (by decide) (by decide) Sample.o_nonneg Sample.o_whole.1 Sample.o_whole.2
example := hierarchicalFamily 4 Sample.tree Sample.hV Sample.right (by decide) Sample.root 2 _ Sample.h Sample.h_nonneg Sample.h_whole.1 Sample.h_whole.2
example := spatiotemporalFamily 4 Sample.tree Sample.dV Sample.right (by decide) Sample.root 2 3 (by decide) (by decide) (by decide) _ Sample.d Sample.d_nonneg Sample.d_whole.1 Sample.d_whole.2

end Lp.C62
