import Verif.Proofs.Mirror
import Verif.Props.C21
import Verif.Proofs.SampleRuns

/-!
# C61 — reversing time

Reversing the order of the elements changes nothing for the ordered analysis but the direction: same qualities for mirrored
intervals, same gain and loss for every parameter, same search results.  The partitions are mirror images of each other
unless two different ones have exactly the same gain and loss (`ties`).  The spatiotemporal analysis has mirrored qualities,
but its partitions may be better in one direction than in the other (`directionMatters`).
-/

namespace Lp.C61
open Spec
variable {F K P P' T T' : Type}

/-- Two searches find the same parameters and the same qualities, or end in the same fault. -/
def SameCurve (a : Res (PState F K P T)) (b : Res (PState F K P' T')) : Prop :=
  (∀ e, a = .error e ↔ b = .error e) ∧
  ∀ s s', a = .ok s → b = .ok s' → s'.pList = s.pList ∧ s'.qualityList = s.qualityList

section
variable [Field K] [LinearOrder K] [IsStrictOrderedRing K] [FloatP F K]

/-- What a search returns as parameters and qualities (hence `getP` and `computeAUC`) depends only on the gain and loss of the
best partition for each parameter: any two partitioners, of whatever kinds and sizes, whose best partitions have the same
gain and loss for every parameter find the same. -/
theorem curve (ops : PartOps F K P T) (ops' : PartOps F K P' T') (ho : IsPartitioner ops) (ho' : IsPartitioner ops')
    (h : ∀ p X X', ops.best p = .ok X → ops'.best p = .ok X' → ops'.quality X' = ops.quality X)
    (strict : Bool) (fuel : Nat) (t lo hi : F) (st : PState F K P T) (st' : PState F K P' T') :
    SameCurve (computeBestPartitions ops strict fuel t lo hi st) (computeBestPartitions ops' strict fuel t lo hi st') := by
  -- the rows are left out
  let ops0 : PartOps F K P Unit := ⟨ops.best, ops.same, ops.param, ops.quality, fun _ _ => []⟩
  let ops0' : PartOps F K P' Unit := ⟨ops'.best, ops'.same, ops'.param, ops'.quality, fun _ _ => []⟩
  have r := opsRel_curve ho ho' h
  have r0 : OpsRel (fun X X' => ∃ p, ops.best p = .ok X ∧ ops'.best p = .ok X') ops0 ops0' := ⟨r.best, r.same, r.param, r.quality⟩
  have drop : ∀ {P T : Type} (o : PartOps F K P T) (st : PState F K P T),
      RelRes (fun s s' : PState F K P _ => s'.pList = s.pList ∧ s'.qualityList = s.qualityList)
        (computeBestPartitions o strict fuel t lo hi st)
        (computeBestPartitions (⟨o.best, o.same, o.param, o.quality, fun _ _ => []⟩ : PartOps F K P Unit) strict fuel t lo hi
          PState.empty) := by
    intro P T o st
    let e : PartOps F K P T → PartOps F K P Unit := fun o => ⟨o.best, o.same, o.param, o.quality, fun _ _ => []⟩
    have ha : ∀ fuel a b s, addBest (e o) t fuel a b s = addBest o t fuel a b s := by
      intro fuel
      induction fuel with
      | zero => intro a b s; rfl
      | succ fuel ih =>
        intro a b s
        unfold addBest
        simp only [ih, e]
    have hd : ∀ idx s, dedup (e o) strict idx s = dedup o strict idx s := by
      intro idx
      induction idx with
      | zero => intro s; rfl
      | succ idx ih =>
        intro s
        unfold dedup
        simp only [ih, e]
    change RelRes _ _ (computeBestPartitions (e o) strict fuel t lo hi PState.empty)
    unfold computeBestPartitions
    refine (relRes_refl _).bind (fun a a' ha' => ?_)
    subst ha'
    refine (relRes_refl _).bind (fun b b' hb' => ?_)
    subst hb'
    rw [ha]
    refine (relRes_refl _).bind (fun s s' hs => ?_)
    subst hs
    dsimp only
    rw [hd]
    refine (relRes_refl _).bind (fun u u' hu => ?_)
    subst hu
    exact ⟨rfl, rfl⟩
  have h1 := drop ops st
  have h2 := drop ops' st'
  have h3 := search_rel r0 id (fun _ _ _ _ => List.Perm.refl _) strict fuel t lo hi PState.empty PState.empty
  generalize computeBestPartitions ops strict fuel t lo hi st = a at h1 ⊢
  generalize computeBestPartitions ops' strict fuel t lo hi st' = b at h2 ⊢
  change RelRes _ a (computeBestPartitions ops0 strict fuel t lo hi PState.empty) at h1
  change RelRes _ b (computeBestPartitions ops0' strict fuel t lo hi PState.empty) at h2
  generalize computeBestPartitions ops0 strict fuel t lo hi PState.empty = a0 at h1 h3
  generalize computeBestPartitions ops0' strict fuel t lo hi PState.empty = b0 at h2 h3
  cases a <;> cases a0 <;> cases b <;> cases b0 <;> simp only [RelRes] at h1 h2 h3
  · subst h1 h2 h3
    exact ⟨fun e => by simp, fun s s' h => by simp at h⟩
  · refine ⟨fun e => by simp, fun s s' hs hs' => ?_⟩
    obtain rfl := Except.ok.inj hs
    obtain rfl := Except.ok.inj hs'
    exact ⟨by rw [← h2.1, h3.pList, h1.1], by rw [← h2.2, h3.qualityList, h1.2]⟩

/-- Ordered qualities given as a table, and the mirrored table. -/
theorem orderedGiven (n : Nat) (q q' : UTM (Quality K)) (f f' : Nat → Nat → Quality K) (hq : q.Rep n f) (hq' : q'.Rep n f')
    (hf : ∀ i j, i ≤ j → j < n → f' i j = f (n - 1 - j) (n - 1 - i)) :
    (∀ p : F, ∃ (P P' : OPartition F K) (L L' : List (Nat × Nat)), oBestPartition q p = .ok P ∧ oBestPartition q' p = .ok P' ∧
      Tiles 0 n L ∧ Tiles 0 n L' ∧ P.parts = L.map (fun I => ⟨I.1, I.2, f I.1 I.2⟩) ∧
      P'.parts = L'.map (fun I => ⟨I.1, I.2, f' I.1 I.2⟩) ∧ P'.quality = P.quality ∧
      ((∀ M, Tiles 0 n M → gainOf (fun I => f I.1 I.2) M = P.quality.gain → lossOf (fun I => f I.1 I.2) M = P.quality.loss →
        M = L) → L' = mirror n L)) ∧
    ∀ (strict : Bool) (fuel : Nat) (t lo hi : F) (st st' : PState F K (OPartition F K) (F × Int × Int × K × K)),
      SameCurve (computeBestPartitions (oOps q) strict fuel t lo hi st)
        (computeBestPartitions (oOps q') strict fuel t lo hi st') := by
  constructor
  · intro p
    obtain ⟨P, P', L, L', h1, h2, h3, h4, h5, h6, h7, h8, h9, h10⟩ := oBest_mirror hq hq' hf p
    refine ⟨P, P', L, L', h1, h2, h3, h4, h5, h6, h8, fun hu => ?_⟩
    have m := h4.mirror (n := n) (le_refl _)
    simp only [Nat.sub_self, Nat.sub_zero] at m
    have := hu (mirror n L') m (by rw [h7]; exact h9) (by rw [h7]; exact h10)
    rw [← this, mirror_mirror h4 (le_refl _)]
  · intro strict fuel t lo hi st st'
    refine curve _ _ (.ordered q n f hq) (.ordered q' n f' hq') (fun p X X' e e' => ?_) strict fuel t lo hi st st'
    obtain ⟨P, P', L, L', h1, h2, _, _, _, _, _, h8, _⟩ := oBest_mirror hq hq' hf p
    change oBestPartition q p = .ok X at e
    change oBestPartition q' p = .ok X' at e'
    rw [h1] at e; obtain rfl := Except.ok.inj e
    rw [h2] at e'; obtain rfl := Except.ok.inj e'
    exact h8

end

theorem icc_aux {n i j : Nat} (hij : i ≤ j) (hj : j < n) :
    Finset.Icc i j = (Finset.Icc (n - 1 - j) (n - 1 - i)).image (fun x => n - 1 - x) := by
  ext x
  simp only [Finset.mem_Icc, Finset.mem_image]
  constructor
  · rintro ⟨h1, h2⟩; exact ⟨n - 1 - x, by omega, by omega⟩
  · rintro ⟨y, hy, rfl⟩; omega

section
variable [FloatP F ℝ]

/-- Ordered data of any sign, read from either end. -/
theorem ordered (v v' : OValues ℝ) (m n : Nat) (V V' : Nat → Nat → ℝ) (hv : OData v m n V) (hv' : OData v' m n V')
    (hn : n ≤ 65535) (hV : ∀ k i, k < m → i < n → V' k i = V k (n - 1 - i)) :
    ∃ q q' : UTM (Quality ℝ),
      (OQualities.ofValues v).computeQualities = .ok ⟨some v, some q⟩ ∧
      (OQualities.ofValues v').computeQualities = .ok ⟨some v', some q'⟩ ∧
      (∀ i j, i ≤ j → j < n → ∃ x, q.get (n - 1 - j) (n - 1 - i) = .ok x ∧ q'.get i j = .ok x) ∧
      (∀ p : F, ∃ (P P' : OPartition F ℝ), oBestPartition q p = .ok P ∧ oBestPartition q' p = .ok P' ∧
        P'.quality = P.quality) ∧
      ∀ (strict : Bool) (fuel : Nat) (t lo hi : F) (st st' : PState F ℝ (OPartition F ℝ) (F × Int × Int × ℝ × ℝ)),
        SameCurve (computeBestPartitions (oOps q) strict fuel t lo hi st)
          (computeBestPartitions (oOps q') strict fuel t lo hi st') := by
  obtain ⟨q, e, hq⟩ := oq_objectAny hv hn
  obtain ⟨q', e', hq'⟩ := oq_objectAny hv' hn
  have hf : ∀ i j, i ≤ j → j < n → anyQ m V' (oCells (i, j)) = anyQ m V (oCells (n - 1 - j, n - 1 - i)) := by
    intro i j hij hj
    unfold oCells
    rw [icc_aux hij hj]
    refine anyQ_image ?_ (fun k x hk hx => ?_)
    · intro a ha b hb h
      simp only [Finset.coe_Icc, Set.mem_Icc] at ha hb h
      omega
    · simp only [Finset.mem_Icc] at hx
      rw [hV k _ hk (by omega)]
      congr 1; omega
  have main := orderedGiven (F := F) n q q' _ _ hq hq' hf
  refine ⟨q, q', e, e', fun i j hij hj => ⟨_, hq.get (by omega) (by omega), ?_⟩, fun p => ?_, main.2⟩
  · rw [hq'.get hij hj, hf i j hij hj]
  · obtain ⟨P, P', _, _, h1, h2, _, _, _, _, h3, _⟩ := main.1 p
    exact ⟨P, P', h1, h2, h3⟩

end

/-- Spatiotemporal data of any sign: the qualities are those of the mirrored intervals. -/
theorem spatiotemporalQualities (leaves : Nat) (parents : List Int) (v v' : DValues ℝ) (hmd : RightMeta leaves parents v.md)
    (hmd' : v'.md = v.md) (hlt : leaves < parents.length) (m n : Nat) (hn : n ≤ 65535) (hb : leaves * n < 2147483648)
    (V V' : Nat → Nat × Nat → ℝ) (hv : DData v m leaves n V) (hv' : DData v' m leaves n V')
    (hV : ∀ k l x, k < m → l < leaves → x < n → V' k (l, x) = V k (l, n - 1 - x)) :
    ∃ q q' : List (UTM (Quality ℝ)),
      (DQualities.ofValues v).computeQualities = .ok ⟨some v, some q, v.md⟩ ∧
      (DQualities.ofValues v').computeQualities = .ok ⟨some v', some q', v.md⟩ ∧
      ∀ h i j, h < parents.length → i ≤ j → j < n →
        ∃ x, mget q h (n - 1 - j) (n - 1 - i) = .ok x ∧ mget q' h i j = .ok x := by
  obtain ⟨q, e, hq⟩ := dq_objectAny hmd hlt hn hb hv
  obtain ⟨q', e', hq'⟩ := dq_objectAny (by rw [hmd']; exact hmd) hlt hn hb hv'
  rw [hmd'] at e'
  refine ⟨q, q', e, e', fun h i j hh hij hj => ⟨_, hq.get hh (by omega) (by omega), ?_⟩⟩
  rw [hq'.get hh hij hj]
  congr 1
  have : dCells leaves parents ⟨h, i, j⟩ =
      (dCells leaves parents ⟨h, n - 1 - j, n - 1 - i⟩).image (fun x => (x.1, n - 1 - x.2)) := by
    unfold dCells
    dsimp only
    rw [icc_aux hij hj]
    ext x
    simp only [Finset.mem_product, Finset.mem_image, Prod.exists]
    constructor
    · rintro ⟨h1, y, hy, h2⟩; exact ⟨x.1, y, ⟨h1, hy⟩, by rw [h2]⟩
    · rintro ⟨a, b, ⟨h1, h2⟩, rfl⟩; exact ⟨h1, b, h2, rfl⟩
  rw [this]
  refine anyQ_image ?_ (fun k x hk hx => ?_)
  · intro a ha b hb h
    simp only [dCells, Finset.coe_product, Finset.coe_Icc, Set.mem_prod, Set.mem_Icc] at ha hb
    simp only [Prod.mk.injEq] at h
    exact Prod.ext h.1 (by omega)
  · simp only [dCells, Finset.mem_product, mem_leavesUnder, Finset.mem_Icc] at hx
    rw [hV k _ _ hk hx.1.1 (by omega)]
    congr 2; omega

/-- With ties the partitions need not be mirror images: a symmetric table, whose best partition `[0,0] [1,2]` is not
symmetric. -/
theorem ties :
    (oBestPartition ⟨3, [⟨0, 0⟩, ⟨0, 0⟩, ⟨0, 0⟩, ⟨2, 1⟩, ⟨2, 1⟩, ⟨3, 8⟩]⟩ (1 / 2 : ℚ)).map
      (fun P => (P.parts.map (fun x => (x.start, x.end)), P.quality)) = .ok ([(0, 0), (1, 2)], (⟨2, 1⟩ : Quality ℚ)) := by
  decide +kernel

/-- The data `1 0 2` read from both ends. -/
theorem exOrdered : ∃ q q' : UTM (Quality ℝ),
    (OQualities.ofValues (OValuesN1.ofVec [1, 0, 2] : OValuesN1 ℝ).toOValues).computeQualities =
      .ok ⟨some (OValuesN1.ofVec [1, 0, 2]).toOValues, some q⟩ ∧
    (OQualities.ofValues (OValuesN1.ofVec [2, 0, 1] : OValuesN1 ℝ).toOValues).computeQualities =
      .ok ⟨some (OValuesN1.ofVec [2, 0, 1]).toOValues, some q'⟩ ∧
    (∀ p : ℝ, ∃ (P P' : OPartition ℝ ℝ), oBestPartition q p = .ok P ∧ oBestPartition q' p = .ok P' ∧
        P'.quality = P.quality) := by
  let f : Nat → ℝ := fun i => if i = 0 then 1 else if i = 1 then 0 else 2
  let g : Nat → ℝ := fun i => f (3 - 1 - i)
  have hf : table1 3 f = [1, 0, 2] := by simp [table1, f, List.range_succ]
  have hg : table1 3 g = [2, 0, 1] := by simp [table1, g, f, List.range_succ]
  have d := (OValuesN1.ofVec_holds (O := 3) f).data
  have d' := (OValuesN1.ofVec_holds (O := 3) g).data
  rw [hf] at d
  rw [hg] at d'
  obtain ⟨q, q', h1, h2, _, h3, _⟩ := ordered (F := ℝ) _ _ _ _ _ _ d d' (by norm_num) (fun _ i _ _ => rfl)
  exact ⟨q, q', h1, h2, h3⟩

theorem under_aux (a l : Nat) : Under [2, 2, -1] a l ↔ (a = l ∨ (a = 2 ∧ l < 2)) := by
  constructor
  · intro h
    induction h with
    | self => exact Or.inl rfl
    | @up h p hp _ ih =>
      have := C21.exKids_aux hp
      right; omega
  · rintro (rfl | ⟨rfl, hl⟩)
    · exact .self
    · match l, hl with
      | 0, _ => exact .up (p := 2) rfl .self
      | 1, _ => exact .up (p := 2) rfl .self

/-- The spatiotemporal partition may be better in one direction of time than in the other: at `p = 1/16`, exact arithmetic,
its value is at most 0 for the data `0 1` (leaf 0) and `2 1` (leaf 1) and at least `1/8` for the data `1 0` and `1 2`. -/
theorem directionMatters : ∃ (c c' : DValuesN2 ℝ) (q q' : List (UTM (Quality ℝ))) (P P' : DPartition ℝ ℝ),
    DValuesN2.ofVec [[0, 1], [2, 1]] [2, 2, -1] = .ok c ∧ DValuesN2.ofVec [[1, 0], [1, 2]] [2, 2, -1] = .ok c' ∧
    (DQualities.ofValues c.toDValues).computeQualities = .ok ⟨some c.toDValues, some q, c.md⟩ ∧
    (DQualities.ofValues c'.toDValues).computeQualities = .ok ⟨some c'.toDValues, some q', c'.md⟩ ∧
    dBestPartition q c.md (1 / 16 : ℝ) = .ok P ∧ dBestPartition q' c'.md (1 / 16 : ℝ) = .ok P' ∧
    1 / 16 * P.quality.gain - (1 - 1 / 16) * P.quality.loss ≤ 0 ∧
    1 / 8 ≤ 1 / 16 * P'.quality.gain - (1 - 1 / 16) * P'.quality.loss := by
  obtain ⟨c, q, P, Q, hc, hq, hP, hv, hcov, hQ, hval⟩ := C21.notOptimalData
  have hb : NearestFirst 2 [2, 2, -1] := by
    refine balanced_nearestFirst C21.exTree_aux ?_
    exact .ofCheck (fun h => if h < 2 then 0 else 1) (by decide) (by decide) (by decide)
  obtain ⟨md, hm, _, hr⟩ := C03.right 2 [2, 2, -1] 2 C21.exTree_aux hb
  have mk : ∀ f : Nat × Nat → ℝ, DValuesN2.ofVec (table2 2 2 f) [2, 2, -1] = .ok ⟨1, 2, md, table2 2 2 f⟩ := by
    intro f
    unfold DValuesN2.ofVec
    rw [SIZE1_table2, hm, SIZE2_table2 (by norm_num)]
    rfl
  let g : Nat × Nat → ℝ := fun x => C21.exData (x.1, 2 - 1 - x.2)
  have t1 : ([[0, 1], [2, 1]] : List (List ℝ)) = table2 2 2 C21.exData := by
    simp [table2, table1, C21.exData, List.range_succ]
  have t2 : ([[1, 0], [1, 2]] : List (List ℝ)) = table2 2 2 g := by
    simp [table2, table1, C21.exData, g, List.range_succ]
  have hc' : c = ⟨1, 2, md, table2 2 2 C21.exData⟩ := by
    have := mk C21.exData
    rw [← t1, hc] at this
    exact (Except.ok.inj this)
  subst hc'
  have h1 : (⟨1, 2, md, table2 2 2 C21.exData⟩ : DValuesN2 ℝ).Holds 2 2 md C21.exData := ⟨rfl, rfl, rfl, rfl⟩
  have h2 : (⟨1, 2, md, table2 2 2 g⟩ : DValuesN2 ℝ).Holds 2 2 md g := ⟨rfl, rfl, rfl, rfl⟩
  obtain ⟨q0, q', e0, e', hm'⟩ := spatiotemporalQualities 2 [2, 2, -1]
    (DValuesN2.toDValues ⟨1, 2, md, table2 2 2 C21.exData⟩) (DValuesN2.toDValues ⟨1, 2, md, table2 2 2 g⟩) hr rfl (by norm_num) 1 2 (by norm_num) (by norm_num)
    _ _ h1.data h2.data (fun k l x _ _ _ => rfl)
  obtain ⟨q1, e1, hq1⟩ := dq_objectAny hr (by norm_num) (by norm_num) (by norm_num) h2.data
  have hq0 : q0 = q := by
    have := e0.symm.trans hq
    simp only [Except.ok.injEq, DQualities.mk.injEq, Option.some.injEq] at this
    exact this.2.1
  subst hq0
  have hq1' : q1 = q' := by
    have := e1.symm.trans e'
    simp only [Except.ok.injEq, DQualities.mk.injEq, Option.some.injEq] at this
    exact this.2.1
  subst hq1'
  obtain ⟨P', L, hP', _, _, _, hPq, hopt⟩ := C21.optimal 2 [2, 2, -1] md hr 2 (by norm_num) (by norm_num) q1 _ hq1 (1 / 16 : ℝ)
  refine ⟨_, _, q0, q1, P, P', hc, t2 ▸ mk g, hq, e1, hP, hP', hv, ?_⟩
  let M : List Rect := [⟨2, 0, 0⟩, ⟨0, 1, 1⟩, ⟨1, 1, 1⟩]
  have hMc : CellCover 2 [2, 2, -1] 2 M := by
    refine ⟨by decide, ?_⟩
    classical
    intro l t hl ht
    rw [exactlyOne_countP]
    have hu2 : ∀ a, Under [2, 2, -1] a l ↔ (a = l ∨ a = 2) := by intro a; rw [under_aux]; simp [hl]
    unfold Rect.Has
    simp only [hu2]
    interval_cases l <;> interval_cases t <;> simp [M, List.countP_cons]
  have hMf : CoarseFirst [2, 2, -1] M := by
    intro r hr s hs hne hu
    rw [under_aux] at hu
    simp only [M, List.mem_cons, List.not_mem_nil, or_false] at hr hs
    rcases hr with rfl | rfl | rfl <;> rcases hs with rfl | rfl | rfl <;> dsimp only at hne hu ⊢ <;> omega
  have same : ∀ h i j, h < 3 → i ≤ j → j < 2 →
      anyQ 1 (fun _ => g) (dCells 2 [2, 2, -1] ⟨h, i, j⟩) = Q h (2 - 1 - j) (2 - 1 - i) := by
    intro h i j hh hij hj
    obtain ⟨x, x1, x2⟩ := hm' h i j hh hij hj
    rw [hq1.get hh hij hj] at x2
    rw [hQ h _ _ hh (by omega) (by omega)] at x1
    exact (Except.ok.inj x2).trans (Except.ok.inj x1).symm
  have hle := hopt M hMc hMf
  have hle' : valueOf (1 / 16 : ℝ) (1 - 1 / 16)
      (fun r : Rect => anyQ 1 (fun _ => g) (dCells 2 [2, 2, -1] ⟨r.node, r.first, r.last⟩)) M ≤
      1 / 16 * P'.quality.gain - (1 - 1 / 16) * P'.quality.loss := by
    rw [hPq]
    rcases hle with h | h
    · exact h.le
    · exact h.1.le
  refine le_trans (le_of_eq ?_) hle'
  rw [← hval]
  simp only [valueOf, gainOf, lossOf, M, List.map_cons, List.map_nil, List.sum_cons, List.sum_nil]
  rw [same 2 0 0 (by norm_num) (by norm_num) (by norm_num), same 0 1 1 (by norm_num) (by norm_num) (by norm_num),
    same 1 1 1 (by norm_num) (by norm_num) (by norm_num)]
  simp only [Nat.sub_self, Nat.sub_zero, Nat.reduceSub]
  ring

/-! ## The hypotheses are met by concrete inputs (`Proofs/Samples.lean`) -/

example := curve _ _ Sample.oIs Sample.oIs (fun _ _ _ h h' => by rw [h] at h'; cases h'; rfl) true 20 (1 / 16) 0 1 PState.empty PState.empty
example := orderedGiven (F := ℚ) 3 Sample.oQ (Sample.triangle fun i j => Sample.oF (2 - j) (2 - i)) _ _ Sample.oRep (Sample.triangleRep _) (fun _ _ _ _ => rfl)
example := ordered (F := ℝ) Sample.oV (Sample.oOf fun k i => Sample.val k (2 - i)) 2 3 _ _ Sample.o (Sample.oData _) (by decide) (fun _ _ _ _ => rfl)
example := spatiotemporalQualities 4 Sample.tree Sample.dV (Sample.dOf fun k x => Sample.dVal k (x.1, 2 - x.2)) Sample.right (Eq.refl Sample.md) (by decide) 2 3
  (by decide) (by decide) _ _ Sample.d (Sample.dData _) (fun _ _ _ _ _ _ => rfl)

end Lp.C61
