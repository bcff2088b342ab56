import Verif.Props.C49

/-!
# The search object behind the three functions called from R

What the proofs of the properties about the results of these functions start from: the functions are `rSearch` on a partitioner
whose best partitions are optimal among the rivals, and all qualities lie in the unit square.
-/

namespace Lp
open Spec
variable {F : Type} [FloatP F ℝ] {u : ℝ}

/-- The best partitions are optimal among the rivals, and the qualities of both lie in the unit square. -/
structure UnitOps {P T A : Type} (ops : PartOps F ℝ P T) (part rival : List A → Prop) (quality : A → Quality ℝ) : Prop where
  partitioner : IsPartitioner ops
  best : ∀ p, (0 : ℝ) ≤ FloatP.toK p → (FloatP.toK p : ℝ) ≤ 1 → ∃ P L, ops.best p = .ok P ∧ part L ∧
    ops.quality P = ⟨gainOf quality L, lossOf quality L⟩ ∧
    ∀ L', rival L' → valueOf (FloatP.toK p) (FloatP.toK (FloatP.oneSub p)) quality L' ≤
      valueOf (FloatP.toK p) (FloatP.toK (FloatP.oneSub p)) quality L
  unit : ∀ L, part L → 0 ≤ gainOf quality L ∧ gainOf quality L ≤ 1 ∧ 0 ≤ lossOf quality L ∧ lossOf quality L ≤ 1
  rivalUnit : ∀ L, rival L → 0 ≤ gainOf quality L ∧ gainOf quality L ≤ 1 ∧ 0 ≤ lossOf quality L ∧ lossOf quality L ≤ 1

/-- `oaggregate` is a search on a normalised partitioner. -/
theorem oSetup (d0 d1 d2 : Nat) (f : Nat × Nat × Nat → ℝ) (h0 : 0 < d0) (h1 : 0 < d1) (h2 : 0 < d2) (h2' : d2 ≤ 65535)
    (hF : d0 * d1 < 2 ^ 32) (hpos : ∀ i j k, i < d0 → j < d1 → k < d2 → 0 ≤ f (i, j, k)) :
    ∃ ops : PartOps F ℝ (OPartition F ℝ) (F × Int × Int × ℝ × ℝ), UnitOps ops (Tiles 0 d2) (Tiles 0 d2)
        (relative (gain3 d0 d1 (fun i j k => f (i, j, k))) (loss3 d0 d1 (fun i j k => f (i, j, k))) (Finset.Icc 0 (d2 - 1))
          (fun I : Nat × Nat => Finset.Icc I.1 I.2)) ∧
      ∀ fuel randMax t, oaggregate false fuel randMax id (rArray d0 d1 d2 f) t =
        rSearch ops (fun (p, s, e, g, l) => (⟨p, s + 1, e + 1, g, l⟩ : ORow F ℝ)) false fuel randMax id t := by
  have hv : OData (OValuesN3.ofVec (table3 d0 d1 d2 f)).toOValues (d0 * d1) d2 (fun k o => f (k / d1, k % d1, o)) :=
    C05.containers.2.2.1 _ _ _ _ _ (OValuesN3.ofVec_holds h0 h1 hF f)
  have hp : ∀ k i, k < d0 * d1 → i < d2 → 0 ≤ f (k / d1, k % d1, i) :=
    fun k i hk hi => hpos _ _ _ (C49.divMod_aux hk).1 (C49.divMod_aux hk).2 hi
  obtain ⟨q, e, hq⟩ := oq_object hv h2' hp
  obtain ⟨q', e', hq'⟩ := oqNormalize_spec hq h2
  generalize hqq : relative (gain3 d0 d1 (fun i j k => f (i, j, k))) (loss3 d0 d1 (fun i j k => f (i, j, k))) (Finset.Icc 0 (d2 - 1))
          (fun I : Nat × Nat => Finset.Icc I.1 I.2) = quality
  have hqual : quality = fun I => ⟨(entQ (d0 * d1) (fun k o => f (k / d1, k % d1, o)) (oCells I)).gain /
      (entQ (d0 * d1) (fun k o => f (k / d1, k % d1, o)) (oCells (0, d2 - 1))).gain,
      (entQ (d0 * d1) (fun k o => f (k / d1, k % d1, o)) (oCells I)).loss /
      (entQ (d0 * d1) (fun k o => f (k / d1, k % d1, o)) (oCells (0, d2 - 1))).loss⟩ :=
    hqq.symm.trans (C49.rel_aux d0 d1 (fun i j k => f (i, j, k)) _ (fun I : Nat × Nat => Finset.Icc I.1 I.2))
  have ho : IsPartitioner (oOps (F := F) q') := .ordered q' d2 _ hq'
  have un : ∀ L, Tiles 0 d2 L → 0 ≤ gainOf quality L ∧ gainOf quality L ≤ 1 ∧ 0 ≤ lossOf quality L ∧ lossOf quality L ≤ 1 :=
    fun L ht => C32.square_aux (cells := oCells) (w := (0, d2 - 1)) (tiles_cuts ht h2)
        (by simp [oCells]) (nonneg_oCells hp (by omega)) hqual
  refine ⟨oOps q', ⟨ho, ?_, un, un⟩, ?_⟩
  · intro p hp0 hp1
    obtain ⟨P, ds, L, b1, b2, b3, _, b5⟩ := oBest_lex hq' p
    have ht := oSol_tiles b5.mem 0 rfl (by omega)
    have eq : (fun x : Nat × Nat => (entQ (d0 * d1) (fun k o => f (k / d1, k % d1, o)) (oCells (x.1, x.2))).div
        (entQ (d0 * d1) (fun k o => f (k / d1, k % d1, o)) (oCells (0, d2 - 1)))) = quality := by rw [hqual]; rfl
    rw [eq] at b3 b5
    refine ⟨P, L, b1, ht, b3, ?_⟩
    intro L' hL'
    obtain ⟨ds', s'⟩ := tiles_oSol hL'
    exact (b5.best ds' L' s').value
  · intro fuel randMax t
    unfold oaggregate
    rw [convertToMicroModel_rArray]
    simp only [okBind]
    rw [e]
    simp only [okBind]
    rw [oNormalize_object hv.osize h2 e']
    rfl

/-- `haggregate` is a search with the qualities divided by those of the whole. -/
theorem hTable (d0 d1 d2 : Nat) (f : Nat × Nat × Nat → ℝ) (h : List Int) (h0 : 0 < d0) (h1 : 0 < d1) (hF : d1 * d2 < 2 ^ 32)
    (tree : IsTree d0 (h.map (· - 1)) ((h.map (· - 1)).length - 1)) (near : NearestFirst d0 (h.map (· - 1)))
    (hlt : d0 < (h.map (· - 1)).length) (hpos : ∀ i j k, i < d0 → j < d1 → k < d2 → 0 ≤ f (i, j, k)) :
    ∃ (md : HMeta) (q : List (Quality ℝ)), RightMeta d0 (h.map (· - 1)) md ∧
      VRep q (h.map (· - 1)).length (fun x => (entQ (d1 * d2) (fun k l => f (l, k / d2, k % d2)) (leavesUnder d0 (h.map (· - 1)) x)).div
        (entQ (d1 * d2) (fun k l => f (l, k / d2, k % d2)) (leavesUnder d0 (h.map (· - 1)) md.root))) ∧
      ∀ (F : Type) [FloatP F ℝ] fuel randMax (t : F), haggregate false fuel randMax id (rArray d0 d1 d2 f) h t =
        rSearch (hOps q md) (fun (p, n, s, g, l) => (⟨p, (n : Int) + 1, s, g, l⟩ : HRow F ℝ)) false fuel randMax id t := by
  generalize hpa : h.map (· - 1) = parents at *
  obtain ⟨md, m1, m2, m3⟩ := C03.right d0 parents _ tree near
  have hc : ∃ c, HValuesN3.ofVec (table3 d0 d1 d2 f) parents = .ok c := by
    unfold HValuesN3.ofVec
    rw [SIZE1_table3, m1]
    exact ⟨_, rfl⟩
  obtain ⟨c, hc⟩ := hc
  obtain ⟨md', m1', hold⟩ := HValuesN3.ofVec_holds h0 h1 hF f hc
  obtain rfl : md = md' := Except.ok.inj (m1.symm.trans m1')
  have hmd : RightMeta d0 parents c.toHValues.md := by
    show RightMeta d0 parents c.md
    rw [hold.md]; exact m3
  have hroot : c.toHValues.md.root = parents.length - 1 := by
    show c.md.root = _
    rw [hold.md]; exact m2
  have hv : HData c.toHValues (d1 * d2) d0 (fun k l => f (l, k / d2, k % d2)) := C06.containers.2.2.1 _ _ _ _ _ _ hold
  have hp : ∀ k l, k < d1 * d2 → l < d0 → 0 ≤ f (l, k / d2, k % d2) :=
    fun k i hk hi => hpos _ _ _ hi (C49.divMod_aux hk).1 (C49.divMod_aux hk).2
  obtain ⟨q, e, hq⟩ := hq_object hmd hlt hv hp
  obtain ⟨q', e', hq'⟩ := hqNormalize_spec hq hmd.tree.rootLt
  refine ⟨c.toHValues.md, q', hmd, hq'.congr (fun x hx => by unfold nDiv; rw [if_neg (by omega)]), ?_⟩
  intro F _ fuel randMax t
  unfold haggregate haggregateIn
  rw [convertToMicroModel_rArray, convertToHierarchy_map, hpa]
  simp only [okBind]
  rw [hc]
  simp only [okBind]
  rw [e]
  simp only [okBind]
  rw [hNormalize_object e']
  rfl

/-- `haggregate` is a search on a normalised partitioner. -/
theorem hSetup (d0 d1 d2 : Nat) (f : Nat × Nat × Nat → ℝ) (h : List Int) (h0 : 0 < d0) (h1 : 0 < d1) (hF : d1 * d2 < 2 ^ 32)
    (tree : IsTree d0 (h.map (· - 1)) ((h.map (· - 1)).length - 1)) (near : NearestFirst d0 (h.map (· - 1)))
    (hlt : d0 < (h.map (· - 1)).length) (hpos : ∀ i j k, i < d0 → j < d1 → k < d2 → 0 ≤ f (i, j, k)) :
    ∃ ops : PartOps F ℝ (HPartition F ℝ) (F × Nat × Nat × ℝ × ℝ), UnitOps ops (LeafCover d0 (h.map (· - 1))) (LeafCover d0 (h.map (· - 1)))
        (relative (gain3 d1 d2 (fun j k l => f (l, j, k))) (loss3 d1 d2 (fun j k l => f (l, j, k))) (Finset.range d0)
          (leavesUnder d0 (h.map (· - 1)))) ∧
      ∀ fuel randMax t, haggregate false fuel randMax id (rArray d0 d1 d2 f) h t =
        rSearch ops (fun (p, n, s, g, l) => (⟨p, (n : Int) + 1, s, g, l⟩ : HRow F ℝ)) false fuel randMax id t := by
  obtain ⟨md, q', hmd, hq', key⟩ := hTable d0 d1 d2 f h h0 h1 hF tree near hlt hpos
  generalize hpa : h.map (· - 1) = parents at *
  have hp : ∀ k l, k < d1 * d2 → l < d0 → 0 ≤ f (l, k / d2, k % d2) :=
    fun k i hk hi => hpos _ _ _ hi (C49.divMod_aux hk).1 (C49.divMod_aux hk).2
  generalize hqq : relative (gain3 d1 d2 (fun j k l => f (l, j, k))) (loss3 d1 d2 (fun j k l => f (l, j, k))) (Finset.range d0)
          (leavesUnder d0 parents) = quality
  have hqual : quality = fun x => ⟨(entQ (d1 * d2) (fun k l => f (l, k / d2, k % d2)) (leavesUnder d0 parents x)).gain /
      (entQ (d1 * d2) (fun k l => f (l, k / d2, k % d2)) (leavesUnder d0 parents md.root)).gain,
      (entQ (d1 * d2) (fun k l => f (l, k / d2, k % d2)) (leavesUnder d0 parents x)).loss /
      (entQ (d1 * d2) (fun k l => f (l, k / d2, k % d2)) (leavesUnder d0 parents md.root)).loss⟩ := by
    rw [leavesUnder_root hmd.tree, ← hqq]
    exact C49.rel_aux d1 d2 (fun j k l => f (l, j, k)) _ (leavesUnder d0 parents)
  have hq' := hq'.congr (f := _) (g := quality) (fun x hx => by rw [hqual]; rfl)
  have ho : IsPartitioner (hOps (F := F) q' md) := .hierarchical d0 parents _ q' _ hmd hlt hq'
  have un : ∀ L, LeafCover d0 parents L → 0 ≤ gainOf quality L ∧ gainOf quality L ≤ 1 ∧ 0 ≤ lossOf quality L ∧ lossOf quality L ≤ 1 :=
    fun L hcov => C32.square_aux (cells := leavesUnder d0 parents) (w := md.root)
        (leafCover_cuts hmd.tree hcov) (leaves_nonempty hmd.tree hmd.tree.rootLt) (nonneg_hCells hp) hqual
  refine ⟨hOps q' md, ⟨ho, ?_, un, un⟩, fun fuel randMax t => key F fuel randMax t⟩
  intro p hp0 hp1
  obtain ⟨P', L', o1, o2, _, o4, o5⟩ := C19.optimal d0 parents _ hmd hlt q' quality hq' p
  exact ⟨P', L', o1, o2, o4, fun L'' hL'' => (o5 L'' hL'').1⟩

/-- `daggregate` is a search on a normalised partitioner. -/
theorem dSetup (d0 d1 d2 : Nat) (f : Nat × Nat × Nat → ℝ) (h : List Int) (h0 : 0 < d0) (h1 : 0 < d1) (h2 : 0 < d2)
    (h2' : d2 ≤ 65535) (hb : d0 * d2 < 2147483648)
    (tree : IsTree d0 (h.map (· - 1)) ((h.map (· - 1)).length - 1)) (near : NearestFirst d0 (h.map (· - 1)))
    (hlt : d0 < (h.map (· - 1)).length) (hpos : ∀ i j k, i < d0 → j < d1 → k < d2 → 0 ≤ f (i, j, k)) :
    ∃ ops : PartOps F ℝ (DPartition F ℝ) (F × Nat × Int × Nat × Nat × ℝ × ℝ),
      UnitOps ops (fun L => CellCover d0 (h.map (· - 1)) d2 L ∧ CoarseFirst (h.map (· - 1)) L)
          (fun L => CellCover d0 (h.map (· - 1)) d2 L ∧ CoarseFirst (h.map (· - 1)) L)
        (relative (gain3 d1 1 (fun j _ (c : Nat × Nat) => f (c.1, j, c.2))) (loss3 d1 1 (fun j _ (c : Nat × Nat) => f (c.1, j, c.2)))
          (Finset.range d0 ×ˢ Finset.Icc 0 (d2 - 1))
          (fun r : Rect => leavesUnder d0 (h.map (· - 1)) r.node ×ˢ Finset.Icc r.first r.last)) ∧
      ∀ fuel randMax t, daggregate false fuel randMax id (rArray d0 d1 d2 f) h t =
        rSearch ops (fun (p, n, s, a, b, g, l) => (⟨p, (n : Int) + 1, s, (a : Int) + 1, (b : Int) + 1, g, l⟩ : DRow F ℝ)) false fuel
        randMax id t := by
  generalize hpa : h.map (· - 1) = parents at *
  obtain ⟨md, m1, m2, m3⟩ := C03.right d0 parents _ tree near
  have hc : ∃ c, DValuesN3.ofVec (table3 d0 d1 d2 f) parents = .ok c := by
    unfold DValuesN3.ofVec
    rw [SIZE1_table3, m1]
    exact ⟨_, rfl⟩
  obtain ⟨c, hc⟩ := hc
  obtain ⟨md', m1', hold⟩ := DValuesN3.ofVec_holds h0 h1 f hc
  obtain rfl : md = md' := Except.ok.inj (m1.symm.trans m1')
  have hmd : RightMeta d0 parents c.toDValues.md := by
    show RightMeta d0 parents c.md
    rw [hold.md]; exact m3
  have hroot : c.toDValues.md.root = parents.length - 1 := by
    show c.md.root = _
    rw [hold.md]; exact m2
  have hv : DData c.toDValues d1 d0 d2 (fun k x => f (x.1, k, x.2)) := C07.containers.2.1 _ _ _ _ _ _ hold
  have hp : ∀ k l x, k < d1 → l < d0 → x < d2 → 0 ≤ f (l, k, x) := fun k l x hk hl hx => hpos _ _ _ hl hk hx
  obtain ⟨q, e, hq⟩ := dq_object hmd hlt h2' hb hv hp
  obtain ⟨q', e', hq'⟩ := dqNormalize_spec hq hmd.tree.rootLt hmd.hsize h2 h2'
  generalize hqq : relative (gain3 d1 1 (fun j _ (c : Nat × Nat) => f (c.1, j, c.2))) (loss3 d1 1 (fun j _ (c : Nat × Nat) => f (c.1, j, c.2)))
          (Finset.range d0 ×ˢ Finset.Icc 0 (d2 - 1))
          (fun r : Rect => leavesUnder d0 parents r.node ×ˢ Finset.Icc r.first r.last) = quality
  have hall : dCells d0 parents ⟨c.toDValues.md.root, 0, d2 - 1⟩ = Finset.range d0 ×ˢ Finset.Icc 0 (d2 - 1) := by
    unfold dCells; rw [leavesUnder_root hmd.tree]
  have hqual : quality = fun x => ⟨(entQ d1 (fun k x => f (x.1, k, x.2)) (dCells d0 parents x)).gain /
      (entQ d1 (fun k x => f (x.1, k, x.2)) (dCells d0 parents ⟨c.toDValues.md.root, 0, d2 - 1⟩)).gain,
      (entQ d1 (fun k x => f (x.1, k, x.2)) (dCells d0 parents x)).loss /
      (entQ d1 (fun k x => f (x.1, k, x.2)) (dCells d0 parents ⟨c.toDValues.md.root, 0, d2 - 1⟩)).loss⟩ := by
    rw [hall, ← hqq]
    have := C49.rel_aux d1 1 (fun j _ (c : Nat × Nat) => f (c.1, j, c.2)) (Finset.range d0 ×ˢ Finset.Icc 0 (d2 - 1)) (dCells d0 parents)
    simp only [Nat.mul_one, Nat.div_one] at this
    exact this
  have hq' := hq'.congr (g := fun h i j => quality ⟨h, i, j⟩)
    (fun x i j hx _ _ => by rw [hqual]; unfold nDiv; rw [if_neg (by omega)]; rfl)
  have hrq : rq (fun h i j => quality ⟨h, i, j⟩) = quality := rfl
  have ho : IsPartitioner (dOps (F := F) q' c.toDValues.md) := .spatiotemporal d0 parents _ d2 q' _ hmd h2 h2' hq'
  have un : ∀ L, (CellCover d0 parents d2 L ∧ CoarseFirst parents L) →
      0 ≤ gainOf quality L ∧ gainOf quality L ≤ 1 ∧ 0 ≤ lossOf quality L ∧ lossOf quality L ≤ 1 :=
    fun L hcov => C32.square_aux (cells := dCells d0 parents) (w := ⟨c.toDValues.md.root, 0, d2 - 1⟩)
        (cellCover_cuts hmd.tree hcov.1 h2)
        ((leaves_nonempty hmd.tree hmd.tree.rootLt).product (Finset.nonempty_Icc.mpr (Nat.zero_le _)))
        (nonneg_dCells hp (by omega)) hqual
  refine ⟨dOps q' c.toDValues.md, ⟨ho, ?_, un, un⟩, ?_⟩
  · intro p hp0 hp1
    obtain ⟨P, ds, L, b1, b2, b3, _, b5⟩ := dBest_first hmd hq' h2 h2' p
    rw [hrq] at b3 b5
    refine ⟨P, L, b1, ⟨dSol_cellCover hmd h2 b5.mem, dSol_coarse hmd h2 b5.mem⟩, b3, ?_⟩
    rintro L' ⟨hL', hcf⟩
    obtain ⟨ds', L'', hs, hperm⟩ := coarse_dSol hmd h2 hL' hcf
    have hg : gainOf quality L'' = gainOf quality L' := by unfold gainOf; rw [(hperm.map _).sum_eq]
    have hl : lossOf quality L'' = lossOf quality L' := by unfold lossOf; rw [(hperm.map _).sum_eq]
    have := (b5.best ds' L'' hs).value
    unfold valueOf at this ⊢
    rw [hg, hl] at this
    exact this
  · intro fuel randMax t
    unfold daggregate daggregateIn
    rw [convertToMicroModel_rArray, convertToHierarchy_map, hpa]
    simp only [okBind]
    rw [hc]
    simp only [okBind]
    rw [e]
    simp only [okBind]
    rw [dNormalize_object hv.osize h2 e']
    rfl

/-- What a call that returns has done. -/
theorem rSearch_ok {P T R : Type} {ops : PartOps F ℝ P T} {rowFn : T → R} {strict : Bool} {fuel : Nat} {randMax : ℝ} {rnd : ℝ → ℝ} {t : F}
    {r : RResult F ℝ R} (h : rSearch ops rowFn strict fuel randMax rnd t = .ok r) :
    ∃ st, computeBestPartitions ops strict fuel t FloatP.zero (FloatP.oneSub FloatP.zero) PState.empty = .ok st ∧
      getP randMax 2 st = .ok r.pOpt ∧ computeAUC rnd st = .ok r.auc ∧ r.partitions = st.tuples.map rowFn ∧
      r.qualities = st.qualityList.map (fun e => (⟨e.1, e.2.gain, e.2.loss⟩ : QRow F ℝ)) := by
  unfold rSearch at h
  cases hst : computeBestPartitions ops strict fuel t FloatP.zero (FloatP.oneSub FloatP.zero) PState.empty with
  | error x => rw [hst] at h; simp at h
  | ok st =>
    rw [hst] at h
    simp only [okBind] at h
    cases h2 : getP randMax 2 st with
    | error x => rw [h2] at h; simp at h
    | ok po =>
      rw [h2] at h
      simp only [okBind] at h
      cases h3 : computeAUC rnd st with
      | error x => rw [h3] at h; simp at h
      | ok a =>
        rw [h3] at h
        simp only [okBind, pureOk] at h
        obtain rfl := Except.ok.inj h
        exact ⟨st, rfl, h2, h3, rfl, rfl⟩

end Lp
