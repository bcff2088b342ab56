import Verif.Props.C05
import Verif.Props.C06
import Verif.Props.C07
import Verif.Props.C19
import Verif.Props.C20
import Verif.Props.C16
import Verif.Props.C21
import Verif.Proofs.DProducts
import Verif.Proofs.DExact
import Verif.Proofs.Samples
import Verif.Proofs.Chain

/-!
# C47 — the three analyses agree where they overlap

A leaf of a spatiotemporal container is ordered data, a slice of it is hierarchical data.
-/

namespace Lp.C47
open Spec
open scoped BigOperators

theorem any_aux {ι κ : Type} (s : Finset ι) (e : ι ↪ κ) (f : κ → ℝ) :
    gainAny (s.map e) f = gainAny s (fun x => f (e x)) ∧ lossAny (s.map e) f = lossAny s (fun x => f (e x)) := by
  have h : gainAny (s.map e) f = gainAny s (fun x => f (e x)) := by
    unfold gainAny; simp only [Finset.sum_map]
  refine ⟨h, ?_⟩
  unfold lossAny
  rw [h]; simp only [Finset.sum_map, Finset.card_map]

theorem slice_aux (s : Finset Nat) (x : Nat) :
    s ×ˢ Finset.Icc x x = s.map ⟨fun h => (h, x), fun _ _ h => (Prod.mk.inj h).1⟩ := by
  ext ⟨a, b⟩
  simp only [Finset.mem_product, Finset.mem_Icc, Finset.mem_map]
  constructor
  · rintro ⟨h1, h2, h3⟩
    exact ⟨a, h1, by rw [show b = x by omega]; rfl⟩
  · rintro ⟨a', h1, e⟩
    cases e
    exact ⟨h1, le_refl _, le_refl _⟩

theorem leaf_aux (h : Nat) (s : Finset Nat) :
    ({h} : Finset Nat) ×ˢ s = s.map ⟨fun x => (h, x), fun _ _ e => (Prod.mk.inj e).2⟩ := by
  ext ⟨a, b⟩
  simp only [Finset.mem_product, Finset.mem_singleton, Finset.mem_map]
  constructor
  · rintro ⟨rfl, h2⟩
    exact ⟨b, h2, rfl⟩
  · rintro ⟨b', h1, e⟩
    cases e
    exact ⟨rfl, h1⟩

/-- The spatiotemporal qualities of a leaf, over all intervals, are the ordered qualities of the data of that leaf (data of
any sign). -/
theorem leaf (leaves : Nat) (parents : List Int) (v : DValues ℝ) (hmd : RightMeta leaves parents v.md)
    (hlt : leaves < parents.length) (m n : Nat) (hn : n ≤ 65535) (hb : leaves * n < 2147483648)
    (V : Nat → Nat × Nat → ℝ) (hv : DData v m leaves n V)
    (h : Nat) (hh : h < leaves) (w : OValues ℝ) (hw : OData w m n (fun k x => V k (h, x))) :
    ∃ q qo, (DQualities.ofValues v).computeQualities = .ok ⟨some v, some q, v.md⟩ ∧
      (OQualities.ofValues w).computeQualities = .ok ⟨some w, some qo⟩ ∧
      ∀ i j, i ≤ j → j < n → ∃ x, mget q h i j = .ok x ∧ qo.get i j = .ok x := by
  obtain ⟨q, e, hl, hq⟩ := C07.spatiotemporalAnySign leaves parents v hmd hlt m n hn hb V hv
  obtain ⟨qo, eo, _, hqo⟩ := C05.orderedAnySign w m n _ hw hn
  refine ⟨q, qo, e, eo, fun i j hij hj => ⟨_, hq h i j (by omega) hij hj, ?_⟩⟩
  rw [hqo i j hij hj, leavesUnder_leaf hmd.tree hh, leaf_aux]
  simp only [(any_aux _ _ _).1, (any_aux _ _ _).2]
  rfl

/-- The spatiotemporal qualities of single slices, over all nodes, are the hierarchical qualities of the data of that slice. -/
theorem slice (leaves : Nat) (parents : List Int) (v : DValues ℝ) (hmd : RightMeta leaves parents v.md)
    (hlt : leaves < parents.length) (m n : Nat) (hn : n ≤ 65535) (hb : leaves * n < 2147483648)
    (V : Nat → Nat × Nat → ℝ) (hv : DData v m leaves n V)
    (x : Nat) (hx : x < n) (w : HValues ℝ) (hwmd : RightMeta leaves parents w.md) (hw : HData w m leaves (fun k h => V k (h, x))) :
    ∃ q qh, (DQualities.ofValues v).computeQualities = .ok ⟨some v, some q, v.md⟩ ∧
      (HQualities.ofValues w).computeQualities = .ok ⟨some w, some qh, w.md⟩ ∧
      ∀ h, h < parents.length → ∃ y, mget q h x x = .ok y ∧ qh[h]? = some y := by
  obtain ⟨q, e, hl, hq⟩ := C07.spatiotemporalAnySign leaves parents v hmd hlt m n hn hb V hv
  obtain ⟨qh, eh, _, hqh⟩ := C06.hierarchicalAnySign leaves parents w hwmd hlt m _ hw
  refine ⟨q, qh, e, eh, fun h hh => ⟨_, hq h x x hh (le_refl _) hx, ?_⟩⟩
  rw [hqh h hh, slice_aux]
  simp only [(any_aux _ _ _).1, (any_aux _ _ _).2]
  rfl

theorem flat_aux (L : List Nat) : (L.flatMap fun h => ([(0, 0)] : List (Nat × Nat)).map fun I => (⟨h, I.1, I.2⟩ : Rect)) =
    L.map (fun h => ⟨h, 0, 0⟩) := by
  induction L with
  | nil => rfl
  | cons x L ih => rw [List.flatMap_cons, ih]; rfl

variable {F K : Type} [Field K] [LinearOrder K] [IsStrictOrderedRing K] [FloatP F K]

/-- With one slice, the spatiotemporal partitioner returns a partition of the leaves into nodes with the same value of
`p*gain-(1-p)*loss` as the hierarchical partitioner (exact arithmetic; on equal values the two may choose differently, see
C19 and C21). -/
theorem oneSlice (leaves : Nat) (parents : List Int) (md : HMeta) (hmd : RightMeta leaves parents md)
    (hlt : leaves < parents.length) (q : List (UTM (Quality K))) (qh : List (Quality K)) (Q : Nat → Quality K)
    (hq : MRep q parents.length 1 (fun h _ _ => Q h)) (hqh : VRep qh parents.length Q) (p : F) :
    ∃ P Ph, dBestPartition q md p = .ok P ∧ hBestPartition qh md p = .ok Ph ∧
      LeafCover leaves parents (P.parts.map DPart.h) ∧
      FloatP.toK p * P.quality.gain - FloatP.toK (FloatP.oneSub p) * P.quality.loss =
        FloatP.toK p * Ph.quality.gain - FloatP.toK (FloatP.oneSub p) * Ph.quality.loss := by
  obtain ⟨P, ds, L, a1, a2, a3, _, a5⟩ := dBest_first hmd hq one_pos (by norm_num) p
  obtain ⟨Ph, Lh, b1, b2, b3, b4, b5⟩ := C19.optimal leaves parents md hmd hlt qh Q hqh p
  have hc := dSol_cellCover hmd one_pos a5.mem
  have hL : LeafCover leaves parents (L.map Rect.node) := by
    refine ⟨fun x hx => ?_, fun l hl => ?_⟩
    · obtain ⟨r, hr, rfl⟩ := List.mem_map.mp hx
      exact (hc.1 r hr).1
    · obtain ⟨k, ⟨r, hr, hk⟩, hu⟩ := hc.2 l 0 hl one_pos
      refine ⟨k, ⟨r.node, by simp [hr], hk.1⟩, ?_⟩
      rintro k' ⟨x, hx, hu'⟩
      rw [List.getElem?_map, Option.map_eq_some_iff] at hx
      obtain ⟨r', hr', rfl⟩ := hx
      have := hc.1 r' (List.mem_of_getElem? hr')
      exact hu k' ⟨r', hr', hu', by omega, by omega⟩
  refine ⟨P, Ph, a1, b1, ?_, ?_⟩
  · rw [a2, List.map_map]; exact hL
  · rw [a3, b4]
    have hg : gainOf (fun r : Rect => Q r.node) L = gainOf Q (L.map Rect.node) := by unfold gainOf; rw [List.map_map]; rfl
    have hl : lossOf (fun r : Rect => Q r.node) L = lossOf Q (L.map Rect.node) := by unfold lossOf; rw [List.map_map]; rfl
    change FloatP.toK p * gainOf (fun r : Rect => Q r.node) L - FloatP.toK (FloatP.oneSub p) * lossOf (fun r : Rect => Q r.node) L = _
    apply le_antisymm
    · rw [hg, hl]
      exact (b5 _ hL).1
    · obtain ⟨ds', L', s', p'⟩ := product_dSol hmd one_pos b2 (tiling := fun _ => [(0, 0)])
        (fun h _ => .cons (le_refl _) (by norm_num) (.nil 1))
      have := (a5.best ds' L' s').value
      rw [flat_aux] at p'
      have hg' : gainOf (fun r : Rect => Q r.node) L' = gainOf Q Lh := by
        unfold gainOf
        rw [(p'.map _).sum_eq, List.map_map]; rfl
      have hl' : lossOf (fun r : Rect => Q r.node) L' = lossOf Q Lh := by
        unfold lossOf
        rw [(p'.map _).sum_eq, List.map_map]; rfl
      unfold valueOf at this
      rw [← hg', ← hl']
      exact this

/-- Intervals that have every slice from `a` to `n - 1` exactly once are, in some order, a tiling. -/
theorem tiles_aux {n : Nat} (L : List (Nat × Nat)) : ∀ (a : Nat), (∀ I ∈ L, a ≤ I.1 ∧ I.1 ≤ I.2 ∧ I.2 < n) → a ≤ n →
    (∀ t, a ≤ t → t < n → L.countP (fun I => decide (I.1 ≤ t ∧ t ≤ I.2)) = 1) → ∃ M, M.Perm L ∧ Tiles a n M := by
  induction hk : L.length using Nat.strong_induction_on generalizing L with
  | _ k ih =>
    intro a hb ha h1
    rcases Nat.eq_or_lt_of_le ha with rfl | ha'
    · cases L with
      | nil => exact ⟨[], .refl _, .nil a⟩
      | cons I L => have := hb I (by simp); omega
    · have hc := h1 a (le_refl _) ha'
      obtain ⟨I, hI, hp⟩ := List.countP_pos_iff.mp (by rw [hc]; exact one_pos)
      simp only [decide_eq_true_eq] at hp
      have hbI := hb I hI
      have hIa : I.1 = a := by omega
      have perm := List.perm_cons_erase hI
      have cnt : ∀ t, L.countP (fun I => decide (I.1 ≤ t ∧ t ≤ I.2)) =
          (L.erase I).countP (fun I => decide (I.1 ≤ t ∧ t ≤ I.2)) + if I.1 ≤ t ∧ t ≤ I.2 then 1 else 0 := by
        intro t
        rw [perm.countP_eq, List.countP_cons]
        simp
      have zero : ∀ t, a ≤ t → t ≤ I.2 → ∀ J ∈ L.erase I, ¬ (J.1 ≤ t ∧ t ≤ J.2) := by
        intro t ht1 ht2 J hJ h
        have e := cnt t
        rw [h1 t ht1 (by omega), if_pos (by omega)] at e
        have : 0 < (L.erase I).countP (fun I => decide (I.1 ≤ t ∧ t ≤ I.2)) :=
          List.countP_pos_iff.mpr ⟨J, hJ, by simpa using h⟩
        omega
      obtain ⟨M, hM, hT⟩ := ih (L.erase I).length (by
          rw [List.length_erase_of_mem hI, hk]
          have := List.length_pos_of_mem hI
          omega) (L.erase I) rfl (I.2 + 1) (by
          intro J hJ
          have hbJ := hb J (List.mem_of_mem_erase hJ)
          refine ⟨?_, hbJ.2⟩
          by_contra hlt
          exact zero J.1 hbJ.1 (by omega) J hJ ⟨le_refl _, hbJ.2.1⟩) (by omega) (by
          intro t ht1 ht2
          have e := cnt t
          rw [h1 t (by omega) ht2, if_neg (by omega)] at e
          omega)
      refine ⟨I :: M, (hM.cons I).trans perm.symm, ?_⟩
      have : I = (a, I.2) := by rw [← hIa]
      rw [this]
      exact .cons (by omega) hbI.2.2 hT

/-- With one leaf (a chain of nodes with equal data), the spatiotemporal partitioner returns, in some order, a tiling of the slices with
the same gain and loss as the one that the ordered partitioner returns (exact arithmetic). -/
theorem oneLeaf (parents : List Int) (md : HMeta) (hmd : RightMeta 1 parents md) (n : Nat) (h0 : 0 < n) (hn : n ≤ 65535)
    (q : List (UTM (Quality K))) (qo : UTM (Quality K)) (Q : Nat → Nat → Quality K)
    (hq : MRep q parents.length n (fun _ i j => Q i j)) (hqo : qo.Rep n Q) (p : F) :
    ∃ P Po, dBestPartition q md p = .ok P ∧ oBestPartition qo p = .ok Po ∧
      (∃ M, M.Perm (P.parts.map (fun x => (x.start, x.end))) ∧ Tiles 0 n M ∧
        P.quality = ⟨gainOf (fun I : Nat × Nat => Q I.1 I.2) M, lossOf (fun I : Nat × Nat => Q I.1 I.2) M⟩) ∧
      P.quality = Po.quality := by
  obtain ⟨P, L, a1, a2, a3, a4, a5, a6⟩ := C21.optimal 1 parents md hmd n h0 hn q _ hq p
  obtain ⟨Po, Lo, b1, b2, b3, b4, b5⟩ := C16.optimal qo n Q hqo p
  have hall : ∀ h, h < parents.length → Under parents h 0 := fun h hh => by
    obtain ⟨l, hl, hu⟩ := hmd.tree.exists_leaf hh
    obtain rfl : l = 0 := by omega
    exact hu
  obtain ⟨M, hM, hT⟩ := tiles_aux (n := n) (L.map (fun r => (r.first, r.last))) 0 (by
      intro I hI
      obtain ⟨r, hr, rfl⟩ := List.mem_map.mp hI
      exact ⟨Nat.zero_le _, (a2.1 r hr).2⟩) (Nat.zero_le _) (by
      intro t _ ht
      classical
      have := exactlyOne_countP.mp (a2.2 0 t one_pos ht)
      rw [← this, List.countP_map]
      apply List.countP_congr
      intro r hr
      rw [decide_eq_true_eq, Function.comp_apply, decide_eq_true_eq]
      exact ⟨fun h => ⟨hall _ (a2.1 r hr).1, h⟩, fun h => h.2⟩)
  have e : ∀ (X : Quality K → K), (M.map (fun I => X (Q I.1 I.2))).sum = (L.map (fun r => X (Q r.first r.last))).sum := by
    intro X
    rw [(hM.map _).sum_eq, List.map_map]
    rfl
  have hparts : P.parts.map (fun x => (x.start, x.end)) = L.map (fun r => (r.first, r.last)) := by
    have := congrArg (List.map (fun y : Rect × Quality K => (y.1.first, y.1.last))) a4
    simpa [List.map_map, Function.comp_def] using this
  let L' : List Rect := Lo.map (fun I => ⟨0, I.1, I.2⟩)
  have hcov : CellCover 1 parents n L' := by
    refine ⟨fun r hr => ?_, fun l t hl ht => ?_⟩
    · obtain ⟨I, hI, rfl⟩ := List.mem_map.mp hr
      have := b2.bounds I hI
      exact ⟨by have := hmd.tree.leavesLe; dsimp only; omega, this.2⟩
    · obtain rfl : l = 0 := by omega
      obtain ⟨k, ⟨I, hk, hI⟩, hu⟩ := b2.exactlyOne t (Nat.zero_le _) ht
      refine ⟨k, ⟨⟨0, I.1, I.2⟩, by simp [L', hk], .self, hI⟩, ?_⟩
      rintro k' ⟨r, hr, h⟩
      rw [List.getElem?_map, Option.map_eq_some_iff] at hr
      obtain ⟨I', hk', rfl⟩ := hr
      exact hu k' ⟨I', hk', h.2⟩
  have hcf : CoarseFirst parents L' := by
    intro r hr s hs hne
    obtain ⟨_, _, rfl⟩ := List.mem_map.mp hr
    obtain ⟨_, _, rfl⟩ := List.mem_map.mp hs
    exact absurd rfl hne
  have c1 := a6 L' hcov hcf
  have c2 := b5 M hT
  have g1 : gainOf (fun r : Rect => Q r.first r.last) L' = gainOf (fun I : Nat × Nat => Q I.1 I.2) Lo := by
    unfold gainOf; rw [List.map_map]; rfl
  have l1 : lossOf (fun r : Rect => Q r.first r.last) L' = lossOf (fun I : Nat × Nat => Q I.1 I.2) Lo := by
    unfold lossOf; rw [List.map_map]; rfl
  have g2 : gainOf (fun I : Nat × Nat => Q I.1 I.2) M = gainOf (fun r : Rect => Q r.first r.last) L := e Quality.gain
  have l2 : lossOf (fun I : Nat × Nat => Q I.1 I.2) M = lossOf (fun r : Rect => Q r.first r.last) L := e Quality.loss
  refine ⟨P, Po, a1, b1, ⟨M, by rw [hparts]; exact hM, hT, by rw [a5, g2, l2]⟩, ?_⟩
  dsimp only at c1 c2
  unfold valueOf at c1 c2
  rw [g1, l1] at c1
  rw [g2, l2] at c2
  rw [a5, b4]
  rcases c1 with c1 | ⟨c1, c1'⟩
  · rcases c2 with c2 | ⟨c2, _⟩
    · exact absurd c1 (lt_asymm c2)
    · exact absurd c1 (by rw [c2]; exact lt_irrefl _)
  · rcases c2 with c2 | ⟨_, c2'⟩
    · exact absurd c2 (by rw [c1]; exact lt_irrefl _)
    · have hg : gainOf (fun r : Rect => Q r.first r.last) L = gainOf (fun I : Nat × Nat => Q I.1 I.2) Lo := by
        rcases c1' with h | ⟨h, _⟩
        · rcases c2' with h' | ⟨h', _⟩
          · exact absurd h (lt_asymm h')
          · exact h'
        · exact h.symm
      have hl : lossOf (fun r : Rect => Q r.first r.last) L = lossOf (fun I : Nat × Nat => Q I.1 I.2) Lo := by
        rcases c1' with h | ⟨_, h⟩
        · exact absurd h (by rw [hg]; exact lt_irrefl _)
        · rcases c2' with h' | ⟨_, h'⟩
          · exact absurd h' (by rw [hg]; exact lt_irrefl _)
          · exact le_antisymm h h'
      rw [hg, hl]

/-- It is the same tiling, in the same order. -/
theorem oneLeafSame (parents : List Int) (md : HMeta) (hmd : RightMeta 1 parents md) (n : Nat) (h0 : 0 < n) (hn : n ≤ 65535)
    (q : List (UTM (Quality K))) (qo : UTM (Quality K)) (Q : Nat → Nat → Quality K)
    (hq : MRep q parents.length n (fun _ i j => Q i j)) (hqo : qo.Rep n Q) (p : F) :
    ∃ P Po, dBestPartition q md p = .ok P ∧ oBestPartition qo p = .ok Po ∧
      P.parts.map (fun x => (⟨x.start, x.end, x.quality⟩ : OPart K)) = Po.parts ∧ P.quality = Po.quality := by
  obtain ⟨P, T, C, ds, L, a1, a2, a3, a4, a5, _⟩ := dBest_spec hmd hq h0 hn p
  obtain ⟨Po, To, Co, dso, Lo, b1, b2, b3, b4, b5, _⟩ := oBest_spec hqo p
  obtain ⟨_, ds1, L1, ds2, g1, g2⟩ := chain_follows hmd (d_dpEq hmd a2) (o_dpEq b2) _ _ md.root 0 (Nat.lt_succ_self _) hmd.last h0
  obtain ⟨_, rfl⟩ := g1.unique a3
  have hs : oStart n 0 = [0] := by rw [oStart, if_pos h0]
  rw [hs] at b3
  obtain ⟨_, e⟩ := g2.unique b3
  refine ⟨P, Po, a1, b1, ?_, ?_⟩
  · rw [a4, b4, ← e, List.map_map, List.map_map]
    rfl
  · rw [a5, b5, ← e, List.map_map]
    rfl

/-- From the data: one leaf, data of any sign. -/
theorem oneLeafData (parents : List Int) (v : DValues ℝ) (hmd : RightMeta 1 parents v.md) (hlt : 1 < parents.length)
    (m n : Nat) (h0 : 0 < n) (hn : n ≤ 65535) (V : Nat → Nat × Nat → ℝ) (hv : DData v m 1 n V)
    (w : OValues ℝ) (hw : OData w m n (fun k x => V k (0, x))) :
    ∃ q qo, (DQualities.ofValues v).computeQualities = .ok ⟨some v, some q, v.md⟩ ∧
      (OQualities.ofValues w).computeQualities = .ok ⟨some w, some qo⟩ ∧
      ∀ {F : Type} [FloatP F ℝ] (p : F), ∃ P Po, dBestPartition q v.md p = .ok P ∧ oBestPartition qo p = .ok Po ∧
        P.parts.map (fun x => (⟨x.start, x.end, x.quality⟩ : OPart ℝ)) = Po.parts ∧ P.quality = Po.quality := by
  obtain ⟨q, e, hq⟩ := dq_objectAny hmd hlt hn (by omega) hv
  obtain ⟨qo, eo, hqo⟩ := oq_objectAny hw hn
  refine ⟨q, qo, e, eo, fun p => oneLeafSame parents v.md hmd n h0 hn q qo _ (hq.congr (fun h i j hh hij hj => ?_)) hqo p⟩
  have hun : leavesUnder 1 parents h = {0} := by
    obtain ⟨l, hl, hu⟩ := hmd.tree.exists_leaf hh
    obtain rfl : l = 0 := by omega
    ext x
    rw [mem_leavesUnder, Finset.mem_singleton]
    exact ⟨fun h => by omega, fun h => h ▸ ⟨by omega, hu⟩⟩
  unfold anyQ dCells
  rw [hun, leaf_aux]
  simp only [(any_aux _ _ _).1, (any_aux _ _ _).2]
  rfl

/-! ## Concrete cases: the tree of C03 with 4 leaves, 3 slices, leaf 1 and slice 2 -/

example : ∃ c qd qo qh, DValuesN2.ofVec (table2 4 3 (fun x => (x.1 + x.2 : ℝ))) [4, 4, 6, 6, 5, -1, 5] = .ok c ∧
    (DQualities.ofValues c.toDValues).computeQualities = .ok ⟨some c.toDValues, some qd, c.md⟩ ∧
    (∃ w, (OQualities.ofValues (OValuesN1.ofVec (table1 3 (fun x => (1 + x : ℝ)))).toOValues).computeQualities = .ok ⟨w, some qo⟩) ∧
    (∃ w ch, HValuesN1.ofVec (table1 4 (fun h => (h + 2 : ℝ))) [4, 4, 6, 6, 5, -1, 5] = .ok ch ∧
      (HQualities.ofValues ch.toHValues).computeQualities = .ok ⟨w, some qh, ch.md⟩) ∧
    (∀ i j, i ≤ j → j < 3 → ∃ x, mget qd 1 i j = .ok x ∧ qo.get i j = .ok x) ∧
    (∀ h, h < 7 → ∃ x, mget qd h 2 2 = .ok x ∧ qh[h]? = some x) := by
  have t : IsTree 4 [4, 4, 6, 6, 5, -1, 5] 5 :=
    .ofCheck (fun h => if h < 4 then 2 else if h = 5 then 0 else 1) (by decide) (by decide) (by decide) (by decide)
  obtain ⟨md, hm, _, hr⟩ := C03.right 4 [4, 4, 6, 6, 5, -1, 5] 5 t C03.sevenNearest
  have hc : DValuesN2.ofVec (table2 4 3 (fun x => (x.1 + x.2 : ℝ))) [4, 4, 6, 6, 5, -1, 5] =
      .ok ⟨1, 3, md, table2 4 3 (fun x => (x.1 + x.2 : ℝ))⟩ := by
    unfold DValuesN2.ofVec
    rw [SIZE1_table2, hm, SIZE2_table2 (by norm_num)]
    rfl
  obtain ⟨md', hm', hh⟩ := DValuesN2.ofVec_holds (by norm_num) _ hc
  have hch : HValuesN1.ofVec (table1 4 (fun h => (h + 2 : ℝ))) [4, 4, 6, 6, 5, -1, 5] =
      .ok ⟨1, md, table1 4 (fun h => (h + 2 : ℝ))⟩ := by
    unfold HValuesN1.ofVec
    rw [SIZE1_table1, hm]
    rfl
  obtain ⟨_, _, hhh⟩ := HValuesN1.ofVec_holds (fun h => (h + 2 : ℝ)) hch
  obtain ⟨q, qo, e1, e2, e3⟩ := leaf 4 _ _ hr (by decide) 1 3 (by norm_num) (by norm_num) _ hh.data 1 (by norm_num) _
    (by
      have := (OValuesN1.ofVec_holds (O := 3) (fun x => (1 + x : ℝ))).data
      simpa using this)
  obtain ⟨q', qh, f1, f2, f3⟩ := slice 4 _ _ hr (by decide) 1 3 (by norm_num) (by norm_num) _ hh.data 2 (by norm_num) _ hr
    (by
      have := hhh.data
      simpa using this)
  rw [e1] at f1
  obtain rfl : q = q' := by injection f1 with f1; injection f1 with _ f1; injection f1
  exact ⟨_, q, qo, qh, hc, e1, ⟨_, e2⟩, ⟨_, _, hch, f2⟩, e3, f3⟩

/-- One slice, the qualities of C19: the same nodes from both partitioners. -/
example : (do let md ← mkMeta 4 [4, 4, 6, 6, 5, -1, 5]
              let P ← dBestPartition (C19.exQ.map (fun x => (⟨1, [x]⟩ : UTM (Quality ℚ)))) md (1 / 2 : ℚ)
              let Ph ← hBestPartition C19.exQ md (1 / 2 : ℚ)
              return (P.parts.map DPart.h, Ph.parts.map HPart.h) : Res (List Nat × List Nat)) = .ok ([4, 2, 3], [4, 2, 3]) := by
  decide +kernel

/-- One leaf below two more nodes, 3 slices, the qualities of C16: the same tiling from both partitioners. -/
example : (do let md ← mkMeta 1 [1, 2, -1]
              let P ← dBestPartition (List.replicate 3 C16.exQ) md (1 / 2 : ℚ)
              let Po ← oBestPartition C16.exQ (1 / 2 : ℚ)
              return (P.parts.map (fun x => (x.start, x.end)), Po.parts.map (fun x => (x.start.toNat, x.end.toNat)), P.quality.gain == Po.quality.gain) :
              Res (List (Nat × Nat) × List (Nat × Nat) × Bool)) = .ok ([(0, 1), (2, 2)], [(0, 1), (2, 2)], true) := by
  decide +kernel

/-! ## The hypotheses are met by concrete inputs (`Proofs/Samples.lean`) -/

example := oneSlice (F := ℚ) 4 Sample.tree Sample.md Sample.right (by decide) _ _ _ Sample.sliceRep Sample.hRep (1 / 2)

/-- One leaf below a root, three slices. -/
example : ∃ md, mkMeta 1 [1, -1] = .ok md ∧ ∃ P Po, dBestPartition (List.replicate 2 Sample.oQ) md (1 / 2 : ℚ) = .ok P ∧
    oBestPartition Sample.oQ (1 / 2 : ℚ) = .ok Po ∧
    P.parts.map (fun x => (⟨x.start, x.end, x.quality⟩ : OPart ℚ)) = Po.parts ∧ P.quality = Po.quality := by
  have t : IsTree 1 [1, -1] 1 := .ofCheck (fun h => if h = 0 then 1 else 0) (by decide) (by decide) (by decide) (by decide)
  have b : Balanced 1 [1, -1] := .ofCheck (fun h => h) (by decide) (by decide) (by decide)
  obtain ⟨md, hm, _, hr⟩ := C03.right 1 [1, -1] 1 t (balanced_nearestFirst t b)
  exact ⟨md, hm, oneLeafSame [1, -1] md hr 3 (by norm_num) (by norm_num) _ _ _
    ⟨rfl, fun h hh => ⟨Sample.oQ, List.getElem?_replicate_of_lt hh, Sample.oRep⟩⟩ Sample.oRep _⟩

end Lp.C47
