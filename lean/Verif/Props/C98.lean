import Verif.Proofs.Jointly
import Verif.Props.C05
import Verif.Props.C06
import Verif.Props.C07
import Verif.Proofs.Samples

/-!
# C98 — space and time together are worth at least either alone

`worth p Q = p*gain - (1-p)*loss` (`Spec/Subsystems.lean`), with the weights as the code computes them.  For the same values,
at every parameter and whatever the signs of the values, the best spatiotemporal partition is worth at least

* the best partitions of the leaves, each taken as ordered data of its own, together (`eachLeaf`);
* the best partition of the ordered data whose series are all series of all leaves (`timeAlone`; this is how `oaggregate` reads
  a `leaf × series × slice` array), which is worth at most what the leaves are on their own;
* the best partition of the hierarchical data whose series are all series in all slices (`spaceAlone`; this is how `haggregate`
  reads such an array).

`array`: the three readings of one array.  Exact qualities, any rounding of the weights `p` and `1-p`, none of them restricted.
-/

namespace Lp.C98
open Spec
open scoped BigOperators
variable {F : Type} [FloatP F ℝ]

/-- The leaves as ordered data of their own: their best partitions together are worth no more than the spatiotemporal one. -/
theorem eachLeaf (leaves : Nat) (parents : List Int) (v : DValues ℝ) (hmd : RightMeta leaves parents v.md)
    (hlt : leaves < parents.length) (m n : Nat) (hn0 : 0 < n) (hn : n ≤ 65535) (hb : leaves * n < 2147483648)
    (V : Nat → Nat × Nat → ℝ) (hv : DData v m leaves n V)
    (w : Nat → OValues ℝ) (hw : ∀ x < leaves, OData (w x) m n (fun k i => V k (x, i))) :
    ∃ (q : List (UTM (Quality ℝ))) (r : Nat → UTM (Quality ℝ)),
      (DQualities.ofValues v).computeQualities = .ok ⟨some v, some q, v.md⟩ ∧
      (∀ x < leaves, (OQualities.ofValues (w x)).computeQualities = .ok ⟨some (w x), some (r x)⟩) ∧
      ∀ p : F, ∃ (P : DPartition F ℝ) (R : Nat → OPartition F ℝ), dBestPartition q v.md p = .ok P ∧
        (∀ x < leaves, oBestPartition (r x) p = .ok (R x)) ∧
        ∑ x ∈ Finset.range leaves, worth p (R x).quality ≤ worth p P.quality := by
  classical
  obtain ⟨q, e, hq⟩ := dq_objectAny hmd hlt hn hb hv
  have key : ∀ x, ∃ r : UTM (Quality ℝ), x < leaves →
      (OQualities.ofValues (w x)).computeQualities = .ok ⟨some (w x), some r⟩ ∧
      r.Rep n (fun i j => anyQ m (fun k i => V k (x, i)) (oCells (i, j))) := by
    intro x
    by_cases hx : x < leaves
    · obtain ⟨r, h1, h2⟩ := oq_objectAny (hw x hx) hn
      exact ⟨r, fun _ => ⟨h1, h2⟩⟩
    · exact ⟨⟨0, []⟩, fun h => absurd h hx⟩
  choose r hr using key
  refine ⟨q, r, e, fun x hx => (hr x hx).1, fun p => ?_⟩
  obtain ⟨P, hP, hbest⟩ := dBest_products hmd hn0 hn hq p
  have part : ∀ x, ∃ (R : OPartition F ℝ) (L : List (Nat × Nat)), x < leaves → oBestPartition (r x) p = .ok R ∧ Tiles 0 n L ∧
      R.quality = ⟨gainOf (fun I : Nat × Nat => anyQ m (fun k i => V k (x, i)) (oCells (I.1, I.2))) L,
        lossOf (fun I : Nat × Nat => anyQ m (fun k i => V k (x, i)) (oCells (I.1, I.2))) L⟩ := by
    intro x
    by_cases hx : x < leaves
    · obtain ⟨R, L, h1, h2, h3, _⟩ := oBest_tilings (F := F) (hr x hx).2 p
      exact ⟨R, L, fun _ => ⟨h1, h2, h3⟩⟩
    · exact ⟨⟨p, [], [], ⟨0, 0⟩⟩, [], fun h => absurd h hx⟩
  choose R T hRT using part
  refine ⟨P, R, hP, fun x hx => (hRT x hx).1, ?_⟩
  have := hbest (List.range leaves) T (leaves_cover hmd.tree) (fun h hh => (hRT h (List.mem_range.mp hh)).2.1)
  refine le_trans (le_of_eq ?_) this
  unfold worth
  rw [list_sum_range, list_sum_range, Finset.sum_sub_distrib, ← Finset.mul_sum, ← Finset.mul_sum]
  have g : ∀ x ∈ Finset.range leaves, (⟨(R x).quality.gain, (R x).quality.loss⟩ : Quality ℝ) =
      ⟨gainOf (fun I : Nat × Nat => anyQ m V (dCells leaves parents ⟨x, I.1, I.2⟩)) (T x),
        lossOf (fun I : Nat × Nat => anyQ m V (dCells leaves parents ⟨x, I.1, I.2⟩)) (T x)⟩ := by
    intro x hx
    simp only [any_leaf hmd.tree V (Finset.mem_range.mp hx)]
    exact (hRT x (Finset.mem_range.mp hx)).2.2
  rw [Finset.sum_congr rfl (fun x hx => congrArg Quality.gain (g x hx)), Finset.sum_congr rfl (fun x hx => congrArg Quality.loss (g x hx))]

/-- The series of all leaves as one ordered data set: its best partition is worth no more than those of the leaves on their own,
and so no more than the spatiotemporal one. -/
theorem timeAlone (leaves : Nat) (parents : List Int) (v : DValues ℝ) (hmd : RightMeta leaves parents v.md)
    (hlt : leaves < parents.length) (m n : Nat) (hn0 : 0 < n) (hn : n ≤ 65535) (hb : leaves * n < 2147483648)
    (V : Nat → Nat × Nat → ℝ) (hv : DData v m leaves n V)
    (w : Nat → OValues ℝ) (hw : ∀ x < leaves, OData (w x) m n (fun k i => V k (x, i)))
    (vo : OValues ℝ) (ho : OData vo (leaves * m) n (fun k i => V (k % m) (k / m, i))) :
    ∃ (q : List (UTM (Quality ℝ))) (r : Nat → UTM (Quality ℝ)) (s : UTM (Quality ℝ)),
      (DQualities.ofValues v).computeQualities = .ok ⟨some v, some q, v.md⟩ ∧
      (∀ x < leaves, (OQualities.ofValues (w x)).computeQualities = .ok ⟨some (w x), some (r x)⟩) ∧
      (OQualities.ofValues vo).computeQualities = .ok ⟨some vo, some s⟩ ∧
      ∀ p : F, ∃ (P : DPartition F ℝ) (R : Nat → OPartition F ℝ) (S : OPartition F ℝ), dBestPartition q v.md p = .ok P ∧
        (∀ x < leaves, oBestPartition (r x) p = .ok (R x)) ∧ oBestPartition s p = .ok S ∧
        worth p S.quality ≤ ∑ x ∈ Finset.range leaves, worth p (R x).quality ∧ worth p S.quality ≤ worth p P.quality := by
  obtain ⟨q, r, e, he, rest⟩ := eachLeaf (F := F) leaves parents v hmd hlt m n hn0 hn hb V hv w hw
  obtain ⟨s, es, hs⟩ := oq_objectAny ho hn
  refine ⟨q, r, s, e, he, es, fun p => ?_⟩
  obtain ⟨P, R, h1, h2, h3⟩ := rest p
  obtain ⟨S, L, g1, g2, g3, _⟩ := oBest_tilings (F := F) hs p
  have le : worth p S.quality ≤ ∑ x ∈ Finset.range leaves, worth p (R x).quality := by
    have gains : ∀ L : List (Nat × Nat),
        gainOf (fun I : Nat × Nat => anyQ (leaves * m) (fun k i => V (k % m) (k / m, i)) (oCells (I.1, I.2))) L =
          ∑ x ∈ Finset.range leaves, gainOf (fun I : Nat × Nat => anyQ m (fun k i => V k (x, i)) (oCells (I.1, I.2))) L ∧
        lossOf (fun I : Nat × Nat => anyQ (leaves * m) (fun k i => V (k % m) (k / m, i)) (oCells (I.1, I.2))) L =
          ∑ x ∈ Finset.range leaves, lossOf (fun I : Nat × Nat => anyQ m (fun k i => V k (x, i)) (oCells (I.1, I.2))) L := by
      intro L
      unfold gainOf lossOf
      induction L with
      | nil => simp
      | cons I L ih =>
        simp only [List.map_cons, List.sum_cons, Finset.sum_add_distrib]
        rw [ih.1, ih.2, any_leaves]
        exact ⟨rfl, rfl⟩
    rw [g3]
    unfold worth
    rw [(gains L).1, (gains L).2, Finset.mul_sum, Finset.mul_sum, ← Finset.sum_sub_distrib]
    refine Finset.sum_le_sum (fun x hx => ?_)
    have hx' := Finset.mem_range.mp hx
    obtain ⟨rr, er, hr⟩ := oq_objectAny (hw x hx') hn
    obtain rfl : rr = r x := by
      have := er.symm.trans (he x hx')
      simpa using this
    obtain ⟨R', L', k1, _, _, k4⟩ := oBest_tilings (F := F) hr p
    obtain rfl : R' = R x := Except.ok.inj (k1.symm.trans (h2 x hx'))
    exact k4 L g2
  exact ⟨P, R, S, h1, h2, g1, le, le.trans h3⟩

/-- The series of all slices as one hierarchical data set: its best partition is worth no more than the spatiotemporal one. -/
theorem spaceAlone (leaves : Nat) (parents : List Int) (v : DValues ℝ) (hmd : RightMeta leaves parents v.md)
    (hlt : leaves < parents.length) (m n : Nat) (hn0 : 0 < n) (hn : n ≤ 65535) (hb : leaves * n < 2147483648)
    (V : Nat → Nat × Nat → ℝ) (hv : DData v m leaves n V)
    (vh : HValues ℝ) (hmd' : RightMeta leaves parents vh.md) (hh : HData vh (m * n) leaves (fun k l => V (k / n) (l, k % n))) :
    ∃ (q : List (UTM (Quality ℝ))) (s : List (Quality ℝ)),
      (DQualities.ofValues v).computeQualities = .ok ⟨some v, some q, v.md⟩ ∧
      (HQualities.ofValues vh).computeQualities = .ok ⟨some vh, some s, vh.md⟩ ∧
      ∀ p : F, ∃ (P : DPartition F ℝ) (S : HPartition F ℝ), dBestPartition q v.md p = .ok P ∧
        hBestPartition s vh.md p = .ok S ∧ worth p S.quality ≤ worth p P.quality := by
  obtain ⟨q, e, hq⟩ := dq_objectAny hmd hlt hn hb hv
  obtain ⟨s, es, hs⟩ := hq_objectAny hmd' hlt hh
  refine ⟨q, s, e, es, fun p => ?_⟩
  obtain ⟨P, hP, hbest⟩ := dBest_products hmd hn0 hn hq p
  obtain ⟨S, L, g1, g2, _, g4, _⟩ := C19.optimal (F := F) leaves parents vh.md hmd' hlt s _ hs p
  refine ⟨P, S, hP, g1, ?_⟩
  refine le_trans (le_of_eq ?_) (hbest L (fun _ => alone n) g2 (fun _ _ => alone_tiles n))
  rw [g4]
  have slices : ∀ g, anyQ (m * n) (fun k l => V (k / n) (l, k % n)) (leavesUnder leaves parents g) =
      ⟨gainOf (fun I : Nat × Nat => anyQ m V (dCells leaves parents ⟨g, I.1, I.2⟩)) (alone n),
        lossOf (fun I : Nat × Nat => anyQ m V (dCells leaves parents ⟨g, I.1, I.2⟩)) (alone n)⟩ := by
    intro g
    rw [any_slices]
    unfold gainOf lossOf alone
    rw [List.map_map, List.map_map, ← list_sum_range, ← list_sum_range]
    rfl
  unfold gainOf lossOf
  simp only [slices]
  rfl

/-- One `d0 × d1 × d2` array (leaf × series × slice) read in the three ways of the functions called from R, qualities not
normalised: the best spatiotemporal partition is worth at least the best ordered and at least the best hierarchical one. -/
theorem array (d0 d1 d2 : Nat) (f : Nat × Nat × Nat → ℝ) (parents : List Int) (root : Nat) (h0 : 0 < d0) (h1 : 0 < d1)
    (h2 : 0 < d2) (h2' : d2 ≤ 65535) (ha : d0 * d1 < 2 ^ 32) (hb : d1 * d2 < 2 ^ 32) (hc : d0 * d2 < 2147483648)
    (tree : IsTree d0 parents root) (near : NearestFirst d0 parents) (hlt : d0 < parents.length) :
    ∃ (vo : OValuesN3 ℝ) (vh : HValuesN3 ℝ) (vd : DValuesN3 ℝ) (qo : UTM (Quality ℝ)) (qh : List (Quality ℝ))
      (qd : List (UTM (Quality ℝ))),
      OValuesN3.ofVec (table3 d0 d1 d2 f) = vo ∧ HValuesN3.ofVec (table3 d0 d1 d2 f) parents = .ok vh ∧
      DValuesN3.ofVec (table3 d0 d1 d2 f) parents = .ok vd ∧
      (OQualities.ofValues vo.toOValues).computeQualities = .ok ⟨some vo.toOValues, some qo⟩ ∧
      (HQualities.ofValues vh.toHValues).computeQualities = .ok ⟨some vh.toHValues, some qh, vh.md⟩ ∧
      (DQualities.ofValues vd.toDValues).computeQualities = .ok ⟨some vd.toDValues, some qd, vd.md⟩ ∧
      ∀ p : F, ∃ (O : OPartition F ℝ) (H : HPartition F ℝ) (D : DPartition F ℝ), oBestPartition qo p = .ok O ∧
        hBestPartition qh vh.md p = .ok H ∧ dBestPartition qd vd.md p = .ok D ∧
        worth p O.quality ≤ worth p D.quality ∧ worth p H.quality ≤ worth p D.quality := by
  obtain ⟨md, m1, _, m3⟩ := C03.right d0 parents _ tree near
  have eh : ∃ c, HValuesN3.ofVec (table3 d0 d1 d2 f) parents = .ok c := by
    unfold HValuesN3.ofVec
    rw [SIZE1_table3, m1]
    exact ⟨_, rfl⟩
  have ed : ∃ c, DValuesN3.ofVec (table3 d0 d1 d2 f) parents = .ok c := by
    unfold DValuesN3.ofVec
    rw [SIZE1_table3, m1]
    exact ⟨_, rfl⟩
  obtain ⟨ch, eh⟩ := eh
  obtain ⟨cd, ed⟩ := ed
  obtain ⟨md1, n1, holdH⟩ := HValuesN3.ofVec_holds h0 h1 hb f eh
  obtain rfl : md = md1 := Except.ok.inj (m1.symm.trans n1)
  obtain ⟨md2, n2, holdD⟩ := DValuesN3.ofVec_holds h0 h1 f ed
  obtain rfl : md = md2 := Except.ok.inj (m1.symm.trans n2)
  have rh : RightMeta d0 parents ch.toHValues.md := by
    show RightMeta d0 parents ch.md
    rw [holdH.md]; exact m3
  have rd : RightMeta d0 parents cd.toDValues.md := by
    show RightMeta d0 parents cd.md
    rw [holdD.md]; exact m3
  have vo : OData (OValuesN3.ofVec (table3 d0 d1 d2 f)).toOValues (d0 * d1) d2 (fun k o => f (k / d1, k % d1, o)) :=
    C05.containers.2.2.1 _ _ _ _ _ (OValuesN3.ofVec_holds h0 h1 ha f)
  have vh : HData ch.toHValues (d1 * d2) d0 (fun k l => f (l, k / d2, k % d2)) := C06.containers.2.2.1 _ _ _ _ _ _ holdH
  have vd : DData cd.toDValues d1 d0 d2 (fun k x => f (x.1, k, x.2)) := C07.containers.2.1 _ _ _ _ _ _ holdD
  have hw : ∀ x < d0, OData (OValuesN2.ofVec (table2 d1 d2 (fun y => f (x, y.1, y.2)))).toOValues d1 d2 (fun k i => f (x, k, i)) :=
    fun x _ => C05.containers.2.1 _ _ _ _ (OValuesN2.ofVec_holds h1 (fun y => f (x, y.1, y.2)))
  obtain ⟨qd, _, qo, g1, _, g2, g3⟩ := timeAlone (F := F) d0 parents _ rd hlt d1 d2 h2 h2' hc _ vd _ hw _ vo
  obtain ⟨qd', qh, k1, k2, k3⟩ := spaceAlone (F := F) d0 parents _ rd hlt d1 d2 h2 h2' hc _ vd _ rh vh
  obtain rfl : qd' = qd := by simpa using k1.symm.trans g1
  refine ⟨_, ch, cd, qo, qh, qd', rfl, eh, ed, g2, k2, g1, fun p => ?_⟩
  obtain ⟨D, _, O, a1, _, a2, _, a3⟩ := g3 p
  obtain ⟨D', H, b1, b2, b3⟩ := k3 p
  obtain rfl : D' = D := Except.ok.inj (b1.symm.trans a1)
  exact ⟨O, H, D', a2, b2, a1, a3, b3⟩

/-! ## The hypotheses are met by concrete inputs -/

example := eachLeaf (F := ℝ) 4 Sample.tree Sample.dV Sample.dRight (by decide) 2 3 (by decide) (by decide) (by decide) _ Sample.d
  (fun x => Sample.oOf (fun k i => Sample.dVal k (x, i))) (fun _ _ => Sample.oData _)
example := timeAlone (F := ℝ) 4 Sample.tree Sample.dV Sample.dRight (by decide) 2 3 (by decide) (by decide) (by decide) _ Sample.d
  (fun x => Sample.oOf (fun k i => Sample.dVal k (x, i))) (fun _ _ => Sample.oData _)
  _ (C05.containers.2.1 _ (4 * 2) 3 (fun y => Sample.dVal (y.1 % 2) (y.1 / 2, y.2)) (OValuesN2.ofVec_holds (by decide) _))
example := spaceAlone (F := ℝ) 4 Sample.tree Sample.dV Sample.dRight (by decide) 2 3 (by decide) (by decide) (by decide) _ Sample.d
  (⟨2 * 3, Sample.md, table2 4 (2 * 3) (fun y => Sample.dVal (y.2 / 3) (y.1, y.2 % 3))⟩ : HValuesN2 ℝ).toHValues Sample.right
  (C06.containers.2.1 _ 4 (2 * 3) Sample.md (fun y => Sample.dVal (y.2 / 3) (y.1, y.2 % 3)) ⟨rfl, rfl, rfl⟩)

/-- The tree with the leaves 0 to 3, two series, three slices. -/
example := array (F := ℝ) 4 2 3 (fun x => (x.1 : ℝ) - x.2.1 + x.2.2) [4, 4, 6, 6, 5, -1, 5] 5 (by decide) (by decide) (by decide)
  (by decide) (by decide) (by decide) (by decide) C03.sevenTree C03.sevenNearest (by decide)

end Lp.C98
