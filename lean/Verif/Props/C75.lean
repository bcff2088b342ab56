import Verif.Proofs.Nested
import Verif.Proofs.NotNested
import Verif.Proofs.Extreme
import Verif.Proofs.RSetup
import Verif.Props.C33
import Verif.Proofs.Reparam
import Verif.Proofs.Norm
import Verif.Props.C16
import Verif.Props.C19
import Verif.Props.C28
import Verif.Props.C38
import Verif.Props.C47

/-!
# C75 — hierarchical partitions become coarser as `p` grows; ordered and spatiotemporal ones need not

For `p ≤ p'` every part of the best hierarchical partition for `p` lies below a part of the one for `p'`.  Hence a search finds at most
one partition more than the hierarchy has inner nodes, whatever the threshold.  The values 1, 2, 5 show that the intervals for
a larger parameter may cross those for a smaller one.
-/

namespace Lp.C75
open Spec

section tables
variable {F K : Type} [Field K] [LinearOrder K] [IsStrictOrderedRing K] [FloatP F K] {u : K}

/-- Merging parts of a partition of the leaves into nodes never lowers gain or loss (C09 proves it of the qualities of data that
are not negative). -/
def MergeGrows (leaves : Nat) (parents : List Int) (Q : Nat → Quality K) : Prop :=
  ∀ L M, LeafCover leaves parents L → LeafCover leaves parents M → Refines parents L M →
    gainOf Q L ≤ gainOf Q M ∧ lossOf Q L ≤ lossOf Q M

/-- Any table of qualities with that property. -/
theorem table (fl : FloatLaws F K u) (leaves : Nat) (parents : List Int) (md : HMeta) (hmd : RightMeta leaves parents md)
    (hlt : leaves < parents.length) (q : List (Quality K)) (Q : Nat → Quality K) (hq : VRep q parents.length Q)
    (hQ : MergeGrows leaves parents Q) (p p' : F) (hp : (FloatP.toK p : K) ≤ FloatP.toK p') (P P' : HPartition F K)
    (e : hBestPartition q md p = .ok P) (e' : hBestPartition q md p' = .ok P') :
    ∀ x ∈ P.parts, ∃ y ∈ P'.parts, Under parents y.h x.h := by
  obtain ⟨P1, L, h1, h2, h3, _, h4⟩ := C19.optimal leaves parents md hmd hlt q Q hq p
  obtain ⟨P2, L', g1, g2, g3, _, g4⟩ := C19.optimal leaves parents md hmd hlt q Q hq p'
  obtain rfl := C24.res_aux e h1
  obtain rfl := C24.res_aux e' g1
  have href : Refines parents L L' := h_nested_step hmd.tree hQ hp (fl.oneSub_anti p p' hp) h2 g2 (fun M hM => (h4 M hM).1) g4
  have e1 : P.parts.map HPart.h = L := by
    have := congrArg (List.map Prod.fst) h3
    simpa [Function.comp_def] using this
  have e2 : P'.parts.map HPart.h = L' := by
    have := congrArg (List.map Prod.fst) g3
    simpa [Function.comp_def] using this
  intro x hx
  obtain ⟨y, hy, hyx⟩ := href x.h (by rw [← e1]; exact List.mem_map_of_mem hx)
  rw [← e2] at hy
  obtain ⟨z, hz, rfl⟩ := List.mem_map.mp hy
  exact ⟨z, hz, hyx⟩

/-- A search: every listed partition refines all later ones, and there are at most as many as the hierarchy has inner nodes, and one. -/
theorem tableSearch (fl : FloatLaws F K u) (leaves : Nat) (parents : List Int) (md : HMeta) (hmd : RightMeta leaves parents md)
    (hlt : leaves < parents.length) (q : List (Quality K)) (Q : Nat → Quality K) (hq : VRep q parents.length Q)
    (hQ : MergeGrows leaves parents Q) (t lo hi : F)
    (h0 : (0 : K) ≤ FloatP.toK lo) (hl : (FloatP.toK lo : K) < FloatP.toK hi) (h1 : (FloatP.toK hi : K) ≤ 1)
    (fuel : Nat) (st st' : PState F K (HPartition F K) (F × Nat × Nat × K × K))
    (h : computeBestPartitions (hOps q md) false fuel t lo hi st = .ok st') :
    st'.partitions.Pairwise (fun e e' => ∀ x ∈ e.2.parts, ∃ y ∈ e'.2.parts, Under parents y.h x.h) ∧
    st'.pList.length ≤ parents.length - leaves + 1 := by
  obtain ⟨_, hsort, _, hkeys, hbest, _, hdist, _⟩ :=
    C28.list fl (hOps q md) (.hierarchical leaves parents md q Q hmd hlt hq) t lo hi h0 hl h1 fuel st st' h
  have hsort' : st'.partitions.Pairwise (fun e e' => (FloatP.toK e.1 : K) < FloatP.toK e'.1) := by
    rw [← hkeys, List.pairwise_map] at hsort
    exact hsort
  have hnest : st'.partitions.Pairwise (fun e e' => ∀ x ∈ e.2.parts, ∃ y ∈ e'.2.parts, Under parents y.h x.h) := by
    refine (List.Pairwise.and_mem.mp hsort').imp ?_
    rintro e e' ⟨he, he', hlt'⟩
    exact table fl leaves parents md hmd hlt q Q hq hQ e.1 e'.1 hlt'.le e.2 e'.2 (hbest e he) (hbest e' he')
  refine ⟨hnest, ?_⟩
  have hcov : ∀ e ∈ st'.partitions, LeafCover leaves parents (e.2.parts.map HPart.h) := by
    intro e he
    obtain ⟨P1, L, g1, g2, g3, _⟩ := C19.optimal leaves parents md hmd hlt q Q hq e.1
    have hb : hBestPartition q md e.1 = .ok e.2 := hbest e he
    have := C24.res_aux hb g1
    rw [this]
    have e1 : P1.parts.map HPart.h = L := by
      have := congrArg (List.map Prod.fst) g3
      simpa [Function.comp_def] using this
    rw [e1]; exact g2
  have hch := chain_length (S := Finset.Ico leaves parents.length)
    (st'.partitions.map (fun e => splitNodes parents (e.2.parts.map HPart.h)))
    (by
      intro s hs
      obtain ⟨e, he, rfl⟩ := List.mem_map.mp hs
      exact splitNodes_inner (hcov e he))
    (by
      rw [List.pairwise_map]
      refine (List.Pairwise.and_mem.mp (hnest.and hdist)).imp ?_
      rintro e e' ⟨he, he', hn, hd⟩
      have href : Refines parents (e.2.parts.map HPart.h) (e'.2.parts.map HPart.h) := by
        intro x hx
        obtain ⟨x', hx', rfl⟩ := List.mem_map.mp hx
        obtain ⟨y, hy, hyx⟩ := hn x' hx'
        exact ⟨y.h, List.mem_map_of_mem hy, hyx⟩
      refine (splitNodes_anti href).ssubset_of_ne (fun heq => ?_)
      have hmem := splitNodes_inj hmd.tree (hcov e he) (hcov e' he') heq.symm href
      have : HPartition.eqOp e.2 e'.2 = true := by
        rw [C38.hierarchical leaves parents md hmd hlt q q Q Q hq hq e.1 e'.1 e.2 e'.2 (hbest e he) (hbest e' he')]
        ext z
        have := hmem z
        simp only [List.mem_map] at this
        exact this
      have hd : HPartition.eqOp e.2 e'.2 = false := hd
      rw [this] at hd
      cases hd)
  rw [List.length_map, Nat.card_Ico] at hch
  rw [← hkeys, List.length_map]
  exact hch

end tables

variable {F : Type} [FloatP F ℝ] {u : ℝ}

theorem grows_aux (leaves : Nat) (parents : List Int) (root : Nat) (ht : IsTree leaves parents root) (m : Nat) (V : Nat → Nat → ℝ)
    (h0 : ∀ k h, k < m → h < leaves → 0 ≤ V k h) :
    MergeGrows leaves parents (fun h => entQ m V (leavesUnder leaves parents h)) := by
  intro L M hL hM href
  exact (leafCover_cuts ht hL).coarsen (leafCover_cuts ht hM) (m := m) (V := V)
    (fun x hx => by
      obtain ⟨y, hy, hyx⟩ := href x hx
      exact ⟨y, hy, fun l hl => by
        rw [mem_leavesUnder] at hl ⊢
        exact ⟨hl.1, hyx.trans hl.2⟩⟩)
    (fun k hk x hx => h0 k x hk (mem_leavesUnder.mp hx).1)

theorem normGrows_aux (leaves : Nat) (parents : List Int) (root : Nat) (ht : IsTree leaves parents root) (m : Nat) (V : Nat → Nat → ℝ)
    (h0 : ∀ k h, k < m → h < leaves → 0 ≤ V k h) :
    MergeGrows leaves parents (fun h => (entQ m V (leavesUnder leaves parents h)).div (entQ m V (leavesUnder leaves parents root))) := by
  intro L M hL hM href
  rw [gainOf_div, lossOf_div, gainOf_div, lossOf_div]
  have h := grows_aux leaves parents root ht m V h0 L M hL hM href
  have hn : 0 ≤ (entQ m V (leavesUnder leaves parents root)).gain ∧ 0 ≤ (entQ m V (leavesUnder leaves parents root)).loss :=
    entQ_nonneg (nonneg_hCells h0)
  exact ⟨div_le_div_of_nonneg_right h.1 hn.1, div_le_div_of_nonneg_right h.2 hn.2⟩

/-- Data that are not negative: for `p ≤ p'` the partition for `p` refines the one for `p'`; every search lists a chain of
partitions, at most one more than there are inner nodes. -/
theorem hierarchical (fl : FloatLaws F ℝ u) (leaves : Nat) (parents : List Int) (v : HValues ℝ)
    (hmd : RightMeta leaves parents v.md) (hlt : leaves < parents.length) (m : Nat) (V : Nat → Nat → ℝ)
    (hv : HData v m leaves V) (h0 : ∀ k h, k < m → h < leaves → 0 ≤ V k h) :
    ∃ q : List (Quality ℝ), (HQualities.ofValues v).computeQualities = .ok ⟨some v, some q, v.md⟩ ∧
      (∀ p p' : F, (FloatP.toK p : ℝ) ≤ FloatP.toK p' →
        ∃ P P', hBestPartition q v.md p = .ok P ∧ hBestPartition q v.md p' = .ok P' ∧
          ∀ x ∈ P.parts, ∃ y ∈ P'.parts, Under parents y.h x.h) ∧
      ∀ (t lo hi : F), (0 : ℝ) ≤ FloatP.toK lo → (FloatP.toK lo : ℝ) < FloatP.toK hi → (FloatP.toK hi : ℝ) ≤ 1 →
        ∀ fuel st st', computeBestPartitions (hOps q v.md) false fuel t lo hi st = .ok st' →
          st'.partitions.Pairwise (fun e e' => ∀ x ∈ e.2.parts, ∃ y ∈ e'.2.parts, Under parents y.h x.h) ∧
          st'.pList.length ≤ parents.length - leaves + 1 := by
  obtain ⟨q, e, hq⟩ := hq_object hmd hlt hv h0
  have hQ := grows_aux leaves parents v.md.root hmd.tree m V h0
  refine ⟨q, e, fun p p' hp => ?_, fun t lo hi hlo hl hhi fuel st st' h =>
    tableSearch fl leaves parents v.md hmd hlt q _ hq hQ t lo hi hlo hl hhi fuel st st' h⟩
  obtain ⟨P, _, h1, _⟩ := C19.optimal leaves parents v.md hmd hlt q _ hq p
  obtain ⟨P', _, h2, _⟩ := C19.optimal leaves parents v.md hmd hlt q _ hq p'
  exact ⟨P, P', h1, h2, table fl leaves parents v.md hmd hlt q _ hq hQ p p' hp P P' h1 h2⟩

/-- The same after normalize(), when the root has the highest number (so that every node is divided by gain and loss of the whole). -/
theorem hierarchicalNormalized (fl : FloatLaws F ℝ u) (leaves : Nat) (parents : List Int) (v : HValues ℝ)
    (hmd : RightMeta leaves parents v.md) (hlt : leaves < parents.length) (hroot : v.md.root = parents.length - 1)
    (m : Nat) (V : Nat → Nat → ℝ) (hv : HData v m leaves V) (h0 : ∀ k h, k < m → h < leaves → 0 ≤ V k h)
    (_hg : gainSeries m (Finset.range leaves) V ≠ 0) (_hl : lossSeries m (Finset.range leaves) V ≠ 0) :
    ∃ q : List (Quality ℝ), ((HQualities.ofValues v).computeQualities >>= HQualities.normalize) = .ok ⟨some v, some q, v.md⟩ ∧
      (∀ p p' : F, (FloatP.toK p : ℝ) ≤ FloatP.toK p' →
        ∃ P P', hBestPartition q v.md p = .ok P ∧ hBestPartition q v.md p' = .ok P' ∧
          ∀ x ∈ P.parts, ∃ y ∈ P'.parts, Under parents y.h x.h) ∧
      ∀ (t lo hi : F), (0 : ℝ) ≤ FloatP.toK lo → (FloatP.toK lo : ℝ) < FloatP.toK hi → (FloatP.toK hi : ℝ) ≤ 1 →
        ∀ fuel st st', computeBestPartitions (hOps q v.md) false fuel t lo hi st = .ok st' →
          st'.partitions.Pairwise (fun e e' => ∀ x ∈ e.2.parts, ∃ y ∈ e'.2.parts, Under parents y.h x.h) ∧
          st'.pList.length ≤ parents.length - leaves + 1 := by
  obtain ⟨q0, e0, hq0⟩ := hq_object hmd hlt hv h0
  obtain ⟨q, e1, hq1⟩ := hqNormalize_spec hq0 hmd.tree.rootLt
  have e : ((HQualities.ofValues v).computeQualities >>= HQualities.normalize) = .ok ⟨some v, some q, v.md⟩ := by
    rw [e0]; exact hNormalize_object e1
  have hq : VRep q parents.length (fun h => (entQ m V (leavesUnder leaves parents h)).div (entQ m V (leavesUnder leaves parents v.md.root))) :=
    hq1.congr fun x hx => by
      unfold nDiv
      rw [if_neg (by omega)]
  have hQ := normGrows_aux leaves parents v.md.root hmd.tree m V h0
  refine ⟨q, e, fun p p' hp => ?_, fun t lo hi hlo hl hhi fuel st st' h =>
    tableSearch fl leaves parents v.md hmd hlt q _ hq hQ t lo hi hlo hl hhi fuel st st' h⟩
  obtain ⟨P, _, h1, _⟩ := C19.optimal leaves parents v.md hmd hlt q _ hq p
  obtain ⟨P', _, h2, _⟩ := C19.optimal leaves parents v.md hmd hlt q _ hq p'
  exact ⟨P, P', h1, h2, table fl leaves parents v.md hmd hlt q _ hq hQ p p' hp P P' h1 h2⟩

/-- `haggregate`: for every row and every parameter in the sheet that is not smaller, the node of the row lies below that of a row with this parameter; the
sheet of qualities has at most one row more than there are inner nodes. -/
theorem hierarchicalSheet (fl : FloatLaws F ℝ u) (randMax : ℝ) (t : F) (d0 d1 d2 : Nat) (f : Nat × Nat × Nat → ℝ) (h : List Int) (h0 : 0 < d0)
    (h1 : 0 < d1) (hF : d1 * d2 < 2 ^ 32) (hpos : ∀ i j k, i < d0 → j < d1 → k < d2 → 0 ≤ f (i, j, k)) :
    let parents := h.map (· - 1)
    IsTree d0 parents (parents.length - 1) → NearestFirst d0 parents → d0 < parents.length →
    gain3 d1 d2 (fun j k l => f (l, j, k)) (Finset.range d0) ≠ 0 → loss3 d1 d2 (fun j k l => f (l, j, k)) (Finset.range d0) ≠ 0 →
    ∀ fuel r, haggregate false fuel randMax id (rArray d0 d1 d2 f) h t = .ok r →
      (∀ x ∈ r.partitions, ∀ y ∈ r.partitions, (FloatP.toK x.parameter : ℝ) ≤ FloatP.toK y.parameter →
        ∃ z ∈ r.partitions, z.parameter = y.parameter ∧
          ∃ a b : Nat, z.node = a + 1 ∧ x.node = b + 1 ∧ Under parents a b) ∧
      r.qualities.length ≤ parents.length - d0 + 1 := by
  intro parents tree near hlt _ _ fuel r hr
  obtain ⟨md, q, hmd, hq, key⟩ := hTable d0 d1 d2 f h h0 h1 hF tree near hlt hpos
  rw [key] at hr
  have hp : ∀ k l, k < d1 * d2 → l < d0 → 0 ≤ f (l, k / d2, k % d2) :=
    fun k i hk hi => hpos _ _ _ hi (C49.divMod_aux hk).1 (C49.divMod_aux hk).2
  have hQ := normGrows_aux d0 parents md.root hmd.tree (d1 * d2) _ hp
  have z0 : (FloatP.toK (FloatP.zero : F) : ℝ) = 0 := fl.zero
  have z1 : (FloatP.toK (FloatP.oneSub (FloatP.zero : F)) : ℝ) = 1 := fl.oneSub_zero _ z0
  have hl : (FloatP.toK (FloatP.zero : F) : ℝ) < FloatP.toK (FloatP.oneSub (FloatP.zero : F)) := by rw [z0, z1]; norm_num
  obtain ⟨st, hst, _, _, hrows, hqs⟩ := rSearch_ok hr
  have ho : IsPartitioner (hOps (F := F) q md) := .hierarchical d0 parents md q _ hmd hlt hq
  obtain ⟨_, _, _, hkeys, hbest, hqual, _⟩ := C28.list fl (hOps q md) ho t _ _ z0.ge hl z1.le fuel _ st hst
  have htup := (C33.rows_aux (hOps (F := F) q md) ho fl (fun p P r hr => by
    simp only [hOps, List.mem_map] at hr
    obtain ⟨_, _, rfl⟩ := hr
    rfl) t _ _ z0.ge hl z1.le fuel _ st hst).1
  have hlen := (tableSearch fl d0 parents md hmd hlt q _ hq hQ t _ _ z0.ge hl z1.le fuel _ st hst).2
  constructor
  · intro x hx y hy hxy
    rw [hrows, htup] at hx hy ⊢
    simp only [hOps, List.mem_map, List.mem_flatMap] at hx hy ⊢
    obtain ⟨_, ⟨e, he, a, ha, rfl⟩, rfl⟩ := hx
    obtain ⟨_, ⟨e', he', b, hb, rfl⟩, rfl⟩ := hy
    obtain ⟨c, hc, hu⟩ := table fl d0 parents md hmd hlt q _ hq hQ e.1 e'.1 hxy e.2 e'.2 (hbest e he) (hbest e' he') a ha
    exact ⟨_, ⟨_, ⟨e', he', c, hc, rfl⟩, rfl⟩, rfl, c.h, a.h, rfl, rfl, hu⟩
  · rw [hqs, hqual, List.length_map, List.length_map]
    rw [← hkeys, List.length_map] at hlen
    exact hlen

theorem data125_aux : OData (OValuesN1.ofVec ([1, 2, 5] : List ℝ)).toOValues 1 3 (fun _ => v125) :=
  (OValuesN1.ofVec_holds (O := 3) v125).data

theorem nonneg125_aux : ∀ k i, k < 1 → i < 3 → (0 : ℝ) ≤ (fun _ => v125) k i := by
  intro k i _ hi
  match i, hi with
  | 0, _ => simp [v125]
  | 1, _ => simp [v125]
  | 2, _ => simp [v125]

/-- Ordered data, exact parameters: of the values 1, 2, 5 the best partition is `[0,1] [2,2]` for `p = 1/8` and `[0,0] [1,2]` for
`p = 1/5`. -/
theorem orderedNot : ∃ (v : OValues ℝ) (q : UTM (Quality ℝ)) (P P' : OPartition ℝ ℝ),
    v = (OValuesN1.ofVec ([1, 2, 5] : List ℝ)).toOValues ∧
    (OQualities.ofValues v).computeQualities = .ok ⟨some v, some q⟩ ∧
    oBestPartition q (1 / 8 : ℝ) = .ok P ∧ P.parts.map (fun x => (x.start, x.end)) = [(0, 1), (2, 2)] ∧
    oBestPartition q (1 / 5 : ℝ) = .ok P' ∧ P'.parts.map (fun x => (x.start, x.end)) = [(0, 0), (1, 2)] := by
  obtain ⟨q, e, hq⟩ := oq_object data125_aux (by norm_num) nonneg125_aux
  have best : ∀ p : ℝ, ∃ (P : OPartition ℝ ℝ) (L : List (Nat × Nat)), oBestPartition q p = .ok P ∧ Tiles 0 3 L ∧
      P.parts.map (fun x => (x.start, x.end)) = L.map (fun I => ((I.1 : Int), (I.2 : Int))) ∧
      ∀ L', Tiles 0 3 L' → valueOf p (1 - p) Q125 L' ≤ valueOf p (1 - p) Q125 L := by
    intro p
    obtain ⟨P, L, h1, h2, h3, _, h4⟩ := C16.optimal (F := ℝ) q 3 _ hq p
    refine ⟨P, L, h1, h2, by rw [h3, List.map_map]; rfl, fun L' hL' => ?_⟩
    rcases h4 L' hL' with h | ⟨h, _⟩
    · exact h.le
    · exact h.le
  obtain ⟨P, L, h1, h2, h3, h4⟩ := best (1 / 8)
  obtain ⟨P', L', g1, g2, g3, g4⟩ := best (1 / 5)
  rw [show (1 : ℝ) - 1 / 8 = 7 / 8 by norm_num] at h4
  rw [show (1 : ℝ) - 1 / 5 = 4 / 5 by norm_num] at g4
  rw [(best125 h2).1 h4] at h3
  rw [(best125 g2).2 g4] at g3
  exact ⟨_, q, P, P', rfl, e, h1, h3, g1, g3⟩

theorem chainTree_aux : IsTree 1 [1, -1] 1 :=
  .ofCheck (fun h => if h = 0 then 1 else 0) (by decide) (by decide) (by decide) (by decide)

theorem chainNearest_aux : NearestFirst 1 [1, -1] :=
  balanced_nearestFirst chainTree_aux (.ofCheck (fun h => h) (by decide) (by decide) (by decide))

theorem leaf0_aux {h : Nat} (hh : h < 2) : leavesUnder 1 [1, -1] h = {0} := by
  ext l
  rw [mem_leavesUnder, Finset.mem_singleton]
  constructor
  · rintro ⟨h1, _⟩; omega
  · rintro rfl
    refine ⟨by norm_num, ?_⟩
    obtain ⟨l, hl, hu⟩ := chainTree_aux.exists_leaf (h := h) hh
    obtain rfl : l = 0 := by omega
    exact hu

theorem cells_aux {h : Nat} (hh : h < 2) (i j : Nat) :
    entQ 1 (fun _ (x : Nat × Nat) => v125 x.2) (dCells 1 [1, -1] ⟨h, i, j⟩) = Q125 (i, j) := by
  unfold dCells Q125 entQ
  rw [leaf0_aux hh, C47.leaf_aux]
  simp only [gainSeries, lossSeries, gainOver, lossOver, Finset.sum_map, Finset.card_map]
  rfl

/-- Spatiotemporal data, exact parameters: of one leaf below the root with the values 1, 2, 5 the best partition consists of the
intervals `[0,1] [2,2]` for `p = 1/8` and of `[0,0] [1,2]` for `p = 1/5`. -/
theorem spatiotemporalNot : ∃ (c : DValuesN2 ℝ) (q : List (UTM (Quality ℝ))) (P P' : DPartition ℝ ℝ),
    DValuesN2.ofVec ([[1, 2, 5]] : List (List ℝ)) [1, -1] = .ok c ∧
    (DQualities.ofValues c.toDValues).computeQualities = .ok ⟨some c.toDValues, some q, c.md⟩ ∧
    dBestPartition q c.md (1 / 8 : ℝ) = .ok P ∧ (P.parts.map (fun x => (x.start, x.end))).Perm [(0, 1), (2, 2)] ∧
    dBestPartition q c.md (1 / 5 : ℝ) = .ok P' ∧ (P'.parts.map (fun x => (x.start, x.end))).Perm [(0, 0), (1, 2)] := by
  obtain ⟨md, hm, _, hr⟩ := C03.right 1 [1, -1] 1 chainTree_aux chainNearest_aux
  obtain ⟨c, hc, hcm⟩ : ∃ c : DValuesN2 ℝ, DValuesN2.ofVec ([[1, 2, 5]] : List (List ℝ)) [1, -1] = .ok c ∧ c.md = md := by
    have e : ([[1, 2, 5]] : List (List ℝ)) = table2 1 3 (fun x => v125 x.2) := rfl
    rw [e]
    unfold DValuesN2.ofVec
    rw [SIZE1_table2, hm, SIZE2_table2 (by norm_num)]
    exact ⟨_, rfl, rfl⟩
  obtain ⟨_, _, hh⟩ := DValuesN2.ofVec_holds (L := 1) (O := 3) (by norm_num) (fun x => v125 x.2) hc
  have hr' : RightMeta 1 [1, -1] c.toDValues.md := by subst hcm; exact hr
  obtain ⟨q, e, hq⟩ := dq_object (leaves := 1) (parents := [1, -1]) (n := 3) hr' (by decide) (by norm_num) (by norm_num) hh.data
    (fun k _ i hk _ hi => nonneg125_aux k i hk hi)
  have hq' : MRep q ([1, -1] : List Int).length 3 (fun _ i j => Q125 (i, j)) := by
    refine ⟨hq.len, fun h hh => ?_⟩
    obtain ⟨t, h1, h2⟩ := hq.cell h hh
    refine ⟨t, h1, ?_⟩
    have e : (fun i j => entQ 1 (fun _ (x : Nat × Nat) => v125 x.2) (dCells 1 [1, -1] ⟨h, i, j⟩)) = fun i j => Q125 (i, j) := by
      funext i j; exact cells_aux hh i j
    rw [← e]; exact h2
  obtain ⟨qo, _, hqo⟩ := oq_object data125_aux (by norm_num) nonneg125_aux
  have best : ∀ p : ℝ, ∃ (P : DPartition ℝ ℝ) (M : List (Nat × Nat)), dBestPartition q c.md p = .ok P ∧ Tiles 0 3 M ∧
      M.Perm (P.parts.map (fun x => (x.start, x.end))) ∧
      ∀ L', Tiles 0 3 L' → valueOf p (1 - p) Q125 L' ≤ valueOf p (1 - p) Q125 M := by
    intro p
    obtain ⟨P, Po, h1, h2, ⟨M, h3, h4, h5⟩, h6⟩ :=
      C47.oneLeaf (F := ℝ) [1, -1] c.md hr' 3 (by norm_num) (by norm_num) q qo _ hq' hqo p
    obtain ⟨Po', L, g1, g2, _, g4, g5⟩ := C16.optimal (F := ℝ) qo 3 _ hqo p
    obtain rfl := C24.res_aux h2 g1
    refine ⟨P, M, h1, h4, h3, fun L' hL' => ?_⟩
    have hv : valueOf p (1 - p) Q125 L = valueOf p (1 - p) Q125 M := by
      rw [h6, g4] at h5
      injection h5 with hg hl
      unfold valueOf
      exact congrArg₂ (fun a b => p * a - (1 - p) * b) hg hl
    rw [← hv]
    rcases g5 L' hL' with h | ⟨h, _⟩
    · exact h.le
    · exact h.le
  obtain ⟨P, L, h1, h2, h3, h4⟩ := best (1 / 8)
  obtain ⟨P', L', g1, g2, g3, g4⟩ := best (1 / 5)
  rw [show (1 : ℝ) - 1 / 8 = 7 / 8 by norm_num] at h4
  rw [show (1 : ℝ) - 1 / 5 = 4 / 5 by norm_num] at g4
  rw [(best125 h2).1 h4] at h3
  rw [(best125 g2).2 g4] at g3
  exact ⟨c, q, P, P', hc, e, h1, h3.symm, g1, g3.symm⟩

/-- The partitions a search lists for the qualities of C19: each refines the next. -/
example : (do let md ← mkMeta 4 [4, 4, 6, 6, 5, -1, 5]
              let st ← computeBestPartitions (hOps C19.exQ md) false 12 (1 / 1000 : ℚ) 0 1 PState.empty
              return st.partitions.map (fun e => e.2.parts.map HPart.h) : Res (List (List Nat))) =
    .ok [[0, 1, 2, 3], [4, 2, 3], [5]] := by decide +kernel

/-- The hypotheses of `hierarchical` are met by the values 1, 2, 3, 4 on the tree of C03: at most four partitions. -/
example (t : ℝ) (fuel : Nat) : ∃ c q, HValuesN1.ofVec (table1 4 (fun i => (i + 1 : ℝ))) [4, 4, 6, 6, 5, -1, 5] = .ok c ∧
    (HQualities.ofValues c.toHValues).computeQualities = .ok ⟨some c.toHValues, some q, c.md⟩ ∧
    ∀ st, computeBestPartitions (hOps q c.md) false fuel t (0 : ℝ) 1 PState.empty = .ok st → st.pList.length ≤ 4 := by
  obtain ⟨md, hm, _, hr⟩ := C03.right 4 [4, 4, 6, 6, 5, -1, 5] 5 C03.sevenTree C03.sevenNearest
  obtain ⟨c, hc, hcm⟩ : ∃ c : HValuesN1 ℝ, HValuesN1.ofVec (table1 4 (fun i => (i + 1 : ℝ))) [4, 4, 6, 6, 5, -1, 5] = .ok c ∧
      c.md = md := by
    unfold HValuesN1.ofVec
    rw [SIZE1_table1, hm]
    exact ⟨_, rfl, rfl⟩
  obtain ⟨_, _, hh⟩ := HValuesN1.ofVec_holds _ hc
  obtain ⟨q, h1, _, h2⟩ := hierarchical (F := ℝ) (exactLaws ℝ) 4 _ c.toHValues (by subst hcm; exact hr) (by decide) 1 _ hh.data
    (fun k h _ _ => by positivity)
  exact ⟨c, q, hc, h1, fun st hst => (h2 t 0 1 (le_refl _) (by show (0 : ℝ) < 1; norm_num) (le_refl _) fuel _ st hst).2⟩

/-- The hypotheses of `hierarchicalNormalized` are met by the values 1, 2, 3, 4 on the tree of C57: at most four partitions. -/
example (t : ℝ) (fuel : Nat) : ∃ (v : HValues ℝ) (q : List (Quality ℝ)),
    ((HQualities.ofValues v).computeQualities >>= HQualities.normalize) = .ok ⟨some v, some q, v.md⟩ ∧
    ∀ st, computeBestPartitions (hOps q v.md) false fuel t (0 : ℝ) 1 PState.empty = .ok st → st.pList.length ≤ 4 := by
  have t7 : IsTree 4 [4, 4, 5, 5, 6, 6, -1] 6 :=
    .ofCheck (fun h => if h < 4 then 2 else if h < 6 then 1 else 0) (by decide) (by decide) (by decide) (by decide)
  obtain ⟨md, _, hroot, r⟩ := C03.right 4 [4, 4, 5, 5, 6, 6, -1] 6 t7
    (balanced_nearestFirst t7 (.ofCheck (fun h => if h < 4 then 0 else if h < 6 then 1 else 2) (by decide) (by decide) (by decide)))
  have h : (⟨1, md, table1 4 (fun i => (i + 1 : ℝ))⟩ : HValuesN1 ℝ).Holds 4 md (fun i => (i + 1 : ℝ)) := ⟨rfl, rfl, rfl⟩
  have hp : ∀ k i : Nat, k < 1 → i < 4 → 0 ≤ (fun (_ : Nat) (i : Nat) => (i + 1 : ℝ)) k i := fun k i _ _ => by positivity
  obtain ⟨q, h1, _, h2⟩ := hierarchicalNormalized (F := ℝ) (exactLaws ℝ) 4 [4, 4, 5, 5, 6, 6, -1]
    (⟨1, md, table1 4 (fun i => (i + 1 : ℝ))⟩ : HValuesN1 ℝ).toHValues r (by decide) hroot 1 _ h.data hp
    (by
      rw [ne_eq, gainSeries_zero_iff (fun k hk x hx => hp k x hk (by simpa using hx))]
      intro h
      have := h 0 (by norm_num) 0 (by norm_num) 2 (by norm_num) (by norm_num) (by norm_num)
      omega)
    (by
      rw [ne_eq, lossSeries_zero_iff (fun k hk x hx => hp k x hk (by simpa using hx))]
      intro h
      have := h 0 (by norm_num) 0 (by norm_num) 2 (by norm_num)
      norm_num at this)
  exact ⟨_, q, h1, fun st hst => (h2 t 0 1 (le_refl _) (by show (0 : ℝ) < 1; norm_num) (le_refl _) fuel _ st hst).2⟩

/-- `haggregate` on the same values and tree: the call returns at most four partitions. -/
example : ∃ fuel r, haggregate (F := ℝ) false fuel 2147483647 id (rArray 4 1 1 fun x => (x.1 + 1 : ℝ)) [5, 5, 6, 6, 7, 7, 0]
    (1 / 100) = .ok r ∧ r.qualities.length ≤ 4 := by
  obtain ⟨N, h⟩ := C49.hierarchical (exactLaws ℝ) 2147483647 (by norm_num) (1 / 100 : ℝ) (by simp) (by simp)
  have tree : IsTree 4 [4, 4, 5, 5, 6, 6, -1] 6 :=
    .ofCheck (fun h => if h < 4 then 2 else if h = 6 then 0 else 1) (by decide) (by decide) (by decide) (by decide)
  have near : NearestFirst 4 [4, 4, 5, 5, 6, 6, -1] := balanced_nearestFirst tree
    (.ofCheck (fun h => if h < 4 then 0 else if h = 6 then 2 else 1) (by decide) (by decide) (by decide))
  obtain ⟨n1, n2⟩ := C49.nz_aux (f := fun k : Nat => (k + 1 : ℝ)) (s := Finset.range 4)
    (fun x _ => by positivity) (a := 0) (b := 2) (c := 0) (d := 1) (by simp) (by simp) (by norm_num) (by norm_num) (by norm_num)
    (by simp) (by simp) (by norm_num)
  obtain ⟨r, e, _⟩ := h 4 1 1 (fun x => (x.1 + 1 : ℝ)) [5, 5, 6, 6, 7, 7, 0] (by norm_num) (by norm_num) (by norm_num) tree near
    (by norm_num) (fun i j k _ _ _ => by positivity) n1 n2 N (Nat.le_refl _)
  exact ⟨N, r, e, (hierarchicalSheet (exactLaws ℝ) 2147483647 (1 / 100 : ℝ) 4 1 1 (fun x => (x.1 + 1 : ℝ)) [5, 5, 6, 6, 7, 7, 0]
    (by norm_num) (by norm_num) (by norm_num) (fun i j k _ _ _ => by positivity) tree near (by norm_num) n1 n2 N r e).2⟩

end Lp.C75
