import Verif.Proofs.Glue
import Verif.Props.C16
import Verif.Props.C19
import Verif.Props.C21
import Verif.Props.C48
import Verif.Props.C57
import Verif.Proofs.UnderCheck

/-!
# C81 — analysing the parts of a system separately never beats analysing the whole

For every parameter the value of the best partition of the whole is at least the sum of the values of the best partitions of the
parts, when the parts are groups of the hierarchy, or (ordered analysis) consecutive periods.  For the spatiotemporal analysis
this is false for periods.  Data of any sign; exact arithmetic of the qualities, any rounding of the weights `p` and `1-p`.
-/

namespace Lp.C81
open Spec
open scoped BigOperators
variable {F : Type} [FloatP F ℝ]

theorem tiles_append_aux {a b c : Nat} {L M : List (Nat × Nat)} (h1 : Tiles a b L) (h2 : Tiles b c M) : Tiles a c (L ++ M) := by
  induction h1 with
  | nil => exact h2
  | cons h h' h1 ih => exact .cons h (lt_of_lt_of_le h' h2.le) (ih h2)

theorem tiles_shift_aux {a b : Nat} {L : List (Nat × Nat)} (h : Tiles a b L) (k : Nat) :
    Tiles (a + k) (b + k) (L.map fun I => (I.1 + k, I.2 + k)) := by
  induction h with
  | nil => exact .nil _
  | @cons a b c L h h' _ ih =>
    exact .cons (by omega) (by omega) (by rw [show c + k + 1 = c + 1 + k by omega]; exact ih)

/-- Ordered data of `n + n'` slices, and the first `n` and the last `n'` of them analysed on their own. -/
theorem ordered (v v1 v2 : OValues ℝ) (m n n' : Nat) (hn : n + n' ≤ 65535) (V : Nat → Nat → ℝ) (hv : OData v m (n + n') V)
    (hv1 : OData v1 m n V) (hv2 : OData v2 m n' (fun k i => V k (i + n))) :
    ∃ q q1 q2, (OQualities.ofValues v).computeQualities = .ok ⟨some v, some q⟩ ∧
      (OQualities.ofValues v1).computeQualities = .ok ⟨some v1, some q1⟩ ∧
      (OQualities.ofValues v2).computeQualities = .ok ⟨some v2, some q2⟩ ∧
      ∀ p : F, ∃ P P1 P2, oBestPartition q p = .ok P ∧ oBestPartition q1 p = .ok P1 ∧ oBestPartition q2 p = .ok P2 ∧
        worth p P1.quality + worth p P2.quality ≤ worth p P.quality := by
  obtain ⟨q, e, h⟩ := oq_objectAny hv hn
  obtain ⟨q1, e1, h1⟩ := oq_objectAny hv1 (by omega)
  obtain ⟨q2, e2, h2⟩ := oq_objectAny hv2 (by omega)
  refine ⟨q, q1, q2, e, e1, e2, fun p => ?_⟩
  obtain ⟨P, L, a1, _, _, a4, a5⟩ := C16.optimal q (n + n') _ h p
  obtain ⟨P1, L1, b1, b2, _, b4, _⟩ := C16.optimal q1 n _ h1 p
  obtain ⟨P2, L2, c1, c2, _, c4, _⟩ := C16.optimal q2 n' _ h2 p
  refine ⟨P, P1, P2, a1, b1, c1, ?_⟩
  have ht : Tiles 0 (n + n') (L1 ++ L2.map fun I => (I.1 + n, I.2 + n)) := by
    apply tiles_append_aux b2
    have := tiles_shift_aux c2 n
    rwa [Nat.zero_add, Nat.add_comm n' n] at this
  have key := a5 _ ht
  have hs : ∀ I : Nat × Nat, anyQ m V (oCells (I.1 + n, I.2 + n)) = anyQ m (fun k i => V k (i + n)) (oCells I) := by
    intro I
    unfold oCells anyQ
    rw [C48.icc_aux]
    simp only [(C47.any_aux _ _ _).1, (C47.any_aux _ _ _).2]
    rfl
  have hg : gainOf (fun I : Nat × Nat => anyQ m V (oCells (I.1, I.2))) (L1 ++ L2.map fun I => (I.1 + n, I.2 + n)) =
      P1.quality.gain + P2.quality.gain := by
    rw [b4, c4, gainOf_append]
    congr 1
    unfold gainOf
    rw [List.map_map]
    congr 1
    exact List.map_congr_left fun I _ => by simp only [Function.comp]; rw [hs]
  have hl : lossOf (fun I : Nat × Nat => anyQ m V (oCells (I.1, I.2))) (L1 ++ L2.map fun I => (I.1 + n, I.2 + n)) =
      P1.quality.loss + P2.quality.loss := by
    rw [b4, c4, lossOf_append]
    congr 1
    unfold lossOf
    rw [List.map_map]
    congr 1
    exact List.map_congr_left fun I _ => by simp only [Function.comp]; rw [hs]
  have hle : valueOf (FloatP.toK p) (FloatP.toK (FloatP.oneSub p)) (fun I : Nat × Nat => anyQ m V (oCells (I.1, I.2)))
      (L1 ++ L2.map fun I => (I.1 + n, I.2 + n)) ≤ valueOf (FloatP.toK p) (FloatP.toK (FloatP.oneSub p))
      (fun I : Nat × Nat => anyQ m V (oCells (I.1, I.2))) L := by
    rcases key with h | h
    · exact le_of_lt h
    · exact le_of_eq h.1
  unfold valueOf at hle
  rw [hg, hl] at hle
  unfold worth
  rw [a4]
  dsimp only
  linarith

theorem hier_aux {leaves : Nat} {parents : List Int} {c : Nat} {size : Nat → Nat} {sub : Nat → List Int} {e : Nat → Nat → Nat}
    (made : MadeOf leaves parents c size sub e) {md : HMeta} {mds : Nat → HMeta}
    (hmd : RightMeta leaves parents md) (hlt : leaves < parents.length)
    (hmds : ∀ i, i < c → RightMeta (size i) (sub i) (mds i)) (hlts : ∀ i, i < c → size i < (sub i).length)
    (q : List (Quality ℝ)) (qs : Nat → List (Quality ℝ)) (Q : Nat → Quality ℝ) (Qs : Nat → Nat → Quality ℝ)
    (h : VRep q parents.length Q) (hqs : ∀ i, i < c → VRep (qs i) (sub i).length (Qs i))
    (hQ : ∀ i h, i < c → h < (sub i).length → Q (glue leaves parents size sub e i h) = Qs i h) (p : F) :
    ∃ (P : HPartition F ℝ) (Ps : Nat → HPartition F ℝ), hBestPartition q md p = .ok P ∧
      (∀ i, i < c → hBestPartition (qs i) (mds i) p = .ok (Ps i)) ∧
      ∑ i ∈ Finset.range c, worth p (Ps i).quality ≤ worth p P.quality := by
  classical
  obtain ⟨P, L, a1, _, _, a4, a5⟩ := C19.optimal leaves parents md hmd hlt q _ h p
  have hP : ∀ i, ∃ (Pi : HPartition F ℝ) (Li : List Nat), i < c → hBestPartition (qs i) (mds i) p = .ok Pi ∧
      LeafCover (size i) (sub i) Li ∧ Pi.quality =
        ⟨gainOf (Qs i) Li,
         lossOf (Qs i) Li⟩ := by
    intro i
    by_cases hi : i < c
    · obtain ⟨Pi, Li, b1, b2, _, b4, _⟩ := C19.optimal (size i) (sub i) (mds i) (hmds i hi) (hlts i hi) (qs i) _ (hqs i hi) p
      exact ⟨Pi, Li, fun _ => ⟨b1, b2, b4⟩⟩
    · exact ⟨P, [], fun h => absurd h hi⟩
  choose Ps Ls hPs using hP
  refine ⟨P, Ps, a1, fun i hi => (hPs i hi).1, ?_⟩
  have hle := (a5 _ (glue_cover made (L := Ls) fun i hi => (hPs i hi).2.1)).1
  unfold valueOf at hle
  rw [gainOf_range, lossOf_range] at hle
  have hg : ∀ i ∈ Finset.range c, gainOf Q
      ((Ls i).map (glue leaves parents size sub e i)) = (Ps i).quality.gain := by
    intro i hi
    have hi := Finset.mem_range.mp hi
    rw [(hPs i hi).2.2]
    unfold gainOf
    rw [List.map_map]
    congr 1
    exact List.map_congr_left fun h hh => by
      simp only [Function.comp]; rw [hQ i h hi ((hPs i hi).2.1.1 h hh)]
  have hl : ∀ i ∈ Finset.range c, lossOf Q
      ((Ls i).map (glue leaves parents size sub e i)) = (Ps i).quality.loss := by
    intro i hi
    have hi := Finset.mem_range.mp hi
    rw [(hPs i hi).2.2]
    unfold lossOf
    rw [List.map_map]
    congr 1
    exact List.map_congr_left fun h hh => by
      simp only [Function.comp]; rw [hQ i h hi ((hPs i hi).2.1.1 h hh)]
  rw [Finset.sum_congr rfl hg, Finset.sum_congr rfl hl] at hle
  unfold worth
  rw [a4, Finset.sum_sub_distrib, ← Finset.mul_sum, ← Finset.mul_sum]
  exact hle

theorem spat_aux {leaves : Nat} {parents : List Int} {c : Nat} {size : Nat → Nat} {sub : Nat → List Int} {e : Nat → Nat → Nat}
    (made : MadeOf leaves parents c size sub e) {md : HMeta} {mds : Nat → HMeta}
    (hmd : RightMeta leaves parents md)
    (hmds : ∀ i, i < c → RightMeta (size i) (sub i) (mds i)) {n : Nat} (hn0 : 0 < n) (hn : n ≤ 65535)
    (q : List (UTM (Quality ℝ))) (qs : Nat → List (UTM (Quality ℝ))) (Q : Rect → Quality ℝ) (Qs : Nat → Rect → Quality ℝ)
    (h : MRep q parents.length n (fun x i j => Q ⟨x, i, j⟩))
    (hqs : ∀ i, i < c → MRep (qs i) (sub i).length n (fun x a b => Qs i ⟨x, a, b⟩))
    (hQ : ∀ i r, i < c → r.node < (sub i).length → Q (glueRect leaves parents size sub e i r) = Qs i r) (p : F) :
    ∃ (P : DPartition F ℝ) (Ps : Nat → DPartition F ℝ), dBestPartition q md p = .ok P ∧
      (∀ i, i < c → dBestPartition (qs i) (mds i) p = .ok (Ps i)) ∧
      ∑ i ∈ Finset.range c, worth p (Ps i).quality ≤ worth p P.quality := by
  classical
  obtain ⟨P, L, a1, _, _, _, a4, a5⟩ := C21.optimal leaves parents md hmd n hn0 hn q _ h p
  have hP : ∀ i, ∃ (Pi : DPartition F ℝ) (Li : List Rect), i < c → dBestPartition (qs i) (mds i) p = .ok Pi ∧
      CellCover (size i) (sub i) n Li ∧ CoarseFirst (sub i) Li ∧ Pi.quality =
        ⟨gainOf (Qs i) Li,
         lossOf (Qs i) Li⟩ := by
    intro i
    by_cases hi : i < c
    · obtain ⟨Pi, Li, b1, b2, b3, _, b4, _⟩ :=
        C21.optimal (size i) (sub i) (mds i) (hmds i hi) n hn0 hn (qs i) _ (hqs i hi) p
      exact ⟨Pi, Li, fun _ => ⟨b1, b2, b3, b4⟩⟩
    · exact ⟨P, [], fun h => absurd h hi⟩
  choose Ps Ls hPs using hP
  refine ⟨P, Ps, a1, fun i hi => (hPs i hi).1, ?_⟩
  have key := a5 _ (glue_cells made (L := Ls) fun i hi => (hPs i hi).2.1)
    (glue_coarse made hmd.tree (fun i hi => (hmds i hi).tree) (fun i hi x hx => ((hPs i hi).2.1.1 x hx).1)
      fun i hi => (hPs i hi).2.2.1)
  have hle : valueOf (FloatP.toK p) (FloatP.toK (FloatP.oneSub p)) Q
      ((List.range c).flatMap fun i => (Ls i).map (glueRect leaves parents size sub e i)) ≤
      valueOf (FloatP.toK p) (FloatP.toK (FloatP.oneSub p)) Q L := by
    rcases key with h | h
    · exact le_of_lt h
    · exact le_of_eq h.1
  unfold valueOf at hle
  rw [gainOf_range, lossOf_range] at hle
  have hg : ∀ i ∈ Finset.range c, gainOf Q
      ((Ls i).map (glueRect leaves parents size sub e i)) = (Ps i).quality.gain := by
    intro i hi
    have hi := Finset.mem_range.mp hi
    rw [(hPs i hi).2.2.2]
    unfold gainOf
    rw [List.map_map]
    congr 1
    exact List.map_congr_left fun h hh => by
      simp only [Function.comp]; rw [hQ i h hi ((hPs i hi).2.1.1 h hh).1]
  have hl : ∀ i ∈ Finset.range c, lossOf Q
      ((Ls i).map (glueRect leaves parents size sub e i)) = (Ps i).quality.loss := by
    intro i hi
    have hi := Finset.mem_range.mp hi
    rw [(hPs i hi).2.2.2]
    unfold lossOf
    rw [List.map_map]
    congr 1
    exact List.map_congr_left fun h hh => by
      simp only [Function.comp]; rw [hQ i h hi ((hPs i hi).2.1.1 h hh).1]
  rw [Finset.sum_congr rfl hg, Finset.sum_congr rfl hl] at hle
  unfold worth
  rw [a4, Finset.sum_sub_distrib, ← Finset.mul_sum, ← Finset.mul_sum]
  exact hle

/-- Hierarchical data of a system made of `c` parts, and the parts analysed on their own. -/
theorem hierarchical (leaves : Nat) (parents : List Int) (c : Nat) (size : Nat → Nat) (sub : Nat → List Int) (e : Nat → Nat → Nat)
    (made : MadeOf leaves parents c size sub e) (v : HValues ℝ) (w : Nat → HValues ℝ)
    (hmd : RightMeta leaves parents v.md) (hlt : leaves < parents.length)
    (hmds : ∀ i, i < c → RightMeta (size i) (sub i) (w i).md) (hlts : ∀ i, i < c → size i < (sub i).length)
    (m : Nat) (V : Nat → Nat → ℝ) (hv : HData v m leaves V) (hw : ∀ i, i < c → HData (w i) m (size i) (fun k x => V k (e i x))) :
    ∃ (q : List (Quality ℝ)) (qs : Nat → List (Quality ℝ)),
      (HQualities.ofValues v).computeQualities = .ok ⟨some v, some q, v.md⟩ ∧
      (∀ i, i < c → (HQualities.ofValues (w i)).computeQualities = .ok ⟨some (w i), some (qs i), (w i).md⟩) ∧
      ∀ p : F, ∃ (P : HPartition F ℝ) (Ps : Nat → HPartition F ℝ), hBestPartition q v.md p = .ok P ∧
        (∀ i, i < c → hBestPartition (qs i) (w i).md p = .ok (Ps i)) ∧
        ∑ i ∈ Finset.range c, worth p (Ps i).quality ≤ worth p P.quality := by
  classical
  obtain ⟨q, eq, h⟩ := hq_objectAny hmd hlt hv
  have hi : ∀ i, ∃ qi, i < c → (HQualities.ofValues (w i)).computeQualities = .ok ⟨some (w i), some qi, (w i).md⟩ ∧
      VRep qi (sub i).length (fun h => anyQ m (fun k x => V k (e i x)) (leavesUnder (size i) (sub i) h)) := by
    intro i
    by_cases hi : i < c
    · obtain ⟨qi, h1, h2⟩ := hq_objectAny (hmds i hi) (hlts i hi) (hw i hi)
      exact ⟨qi, fun _ => ⟨h1, h2⟩⟩
    · exact ⟨[], fun h => absurd h hi⟩
  choose qs hqs using hi
  refine ⟨q, qs, eq, fun i hi => (hqs i hi).1, fun p => ?_⟩
  exact hier_aux made hmd hlt hmds hlts q qs _ _ h (fun i hi => (hqs i hi).2) (fun i h hi hh => glue_quality made hi hh V) p

/-- Spatiotemporal data of a system made of `c` parts, and the parts analysed on their own. -/
theorem spatiotemporal (leaves : Nat) (parents : List Int) (c : Nat) (size : Nat → Nat) (sub : Nat → List Int)
    (e : Nat → Nat → Nat) (made : MadeOf leaves parents c size sub e) (v : DValues ℝ) (w : Nat → DValues ℝ)
    (hmd : RightMeta leaves parents v.md) (hlt : leaves < parents.length)
    (hmds : ∀ i, i < c → RightMeta (size i) (sub i) (w i).md) (hlts : ∀ i, i < c → size i < (sub i).length)
    (m n : Nat) (hn0 : 0 < n) (hn : n ≤ 65535) (hb : leaves * n < 2147483648)
    (hbs : ∀ i, i < c → size i * n < 2147483648) (V : Nat → Nat × Nat → ℝ)
    (hv : DData v m leaves n V) (hw : ∀ i, i < c → DData (w i) m (size i) n (fun k x => V k (e i x.1, x.2))) :
    ∃ (q : List (UTM (Quality ℝ))) (qs : Nat → List (UTM (Quality ℝ))),
      (DQualities.ofValues v).computeQualities = .ok ⟨some v, some q, v.md⟩ ∧
      (∀ i, i < c → (DQualities.ofValues (w i)).computeQualities = .ok ⟨some (w i), some (qs i), (w i).md⟩) ∧
      ∀ p : F, ∃ (P : DPartition F ℝ) (Ps : Nat → DPartition F ℝ), dBestPartition q v.md p = .ok P ∧
        (∀ i, i < c → dBestPartition (qs i) (w i).md p = .ok (Ps i)) ∧
        ∑ i ∈ Finset.range c, worth p (Ps i).quality ≤ worth p P.quality := by
  classical
  obtain ⟨q, eq, h⟩ := dq_objectAny hmd hlt hn hb hv
  have hi : ∀ i, ∃ qi, i < c → (DQualities.ofValues (w i)).computeQualities = .ok ⟨some (w i), some qi, (w i).md⟩ ∧
      MRep qi (sub i).length n (fun h a b => anyQ m (fun k x => V k (e i x.1, x.2)) (dCells (size i) (sub i) ⟨h, a, b⟩)) := by
    intro i
    by_cases hi : i < c
    · obtain ⟨qi, h1, h2⟩ := dq_objectAny (hmds i hi) (hlts i hi) hn (hbs i hi) (hw i hi)
      exact ⟨qi, fun _ => ⟨h1, h2⟩⟩
    · exact ⟨[], fun h => absurd h hi⟩
  choose qs hqs using hi
  refine ⟨q, qs, eq, fun i hi => (hqs i hi).1, fun p => ?_⟩
  exact spat_aux made hmd hmds hn0 hn q qs (fun r => anyQ m V (dCells leaves parents r))
    (fun i r => anyQ m (fun k x => V k (e i x.1, x.2)) (dCells (size i) (sub i) r)) h (fun i hi => (hqs i hi).2)
    (fun i r hi hh => glue_qualityD made hi hh V) p

/-! ## Periods, spatiotemporal analysis -/

theorem one_aux (a b : ℝ) (f : Nat × Nat → ℝ) (h0 : f (0, 0) = a) (h1 : f (1, 0) = b) (ha : 0 ≤ a) (hb : 0 ≤ b) :
    ∃ (c : DValuesN2 ℝ) (q : List (UTM (Quality ℝ))) (P : DPartition ℝ ℝ),
      DValuesN2.ofVec [[a], [b]] [2, 2, -1] = .ok c ∧
      (DQualities.ofValues c.toDValues).computeQualities = .ok ⟨some c.toDValues, some q, c.md⟩ ∧
      dBestPartition q c.md (1 / 16 : ℝ) = .ok P ∧ 0 ≤ worth (1 / 16 : ℝ) P.quality ∧
      1 / 16 * gainOver {(0, 0), (1, 0)} f - (1 - 1 / 16) * lossOver {(0, 0), (1, 0)} f ≤ worth (1 / 16 : ℝ) P.quality := by
  have hbal := balanced_nearestFirst C21.exTree_aux
    (.ofCheck (fun h => if h < 2 then 0 else 1) (by decide) (by decide) (by decide))
  obtain ⟨md, hm, _, hr⟩ := C03.right 2 [2, 2, -1] 2 C21.exTree_aux hbal
  have ht : ([[a], [b]] : List (List ℝ)) = table2 2 1 f := by
    simp [table2, table1, List.range_succ, h0, h1]
  have hc : DValuesN2.ofVec [[a], [b]] [2, 2, -1] = .ok ⟨1, 1, md, table2 2 1 f⟩ := by
    rw [ht]
    unfold DValuesN2.ofVec
    rw [SIZE1_table2, hm, SIZE2_table2 (by norm_num)]
    rfl
  obtain ⟨_, _, hh⟩ := DValuesN2.ofVec_holds (by norm_num) f (ht ▸ hc)
  have hpos : ∀ k l x, k < 1 → l < 2 → x < 1 → 0 ≤ f (l, x) := by
    intro _ l x _ hl hx
    obtain rfl : x = 0 := by omega
    match l, hl with
    | 0, _ => rw [h0]; exact ha
    | 1, _ => rw [h1]; exact hb
  obtain ⟨q, e1, e2⟩ := dq_object hr (by norm_num) (by norm_num) (by norm_num)
    (v := DValuesN2.toDValues ⟨1, 1, md, table2 2 1 f⟩) hh.data hpos
  obtain ⟨P, e3, e4⟩ := C21.optimalOneSlice 2 [2, 2, -1] md hr q _ e2 (1 / 16 : ℝ)
  have hroot : md.root = 2 := by
    have := hr.tree.rootPar
    have hlt := hr.tree.rootLt
    generalize md.root = r at this hlt
    match r, hlt with
    | 0, _ => simp at this
    | 1, _ => simp at this
    | 2, _ => rfl
  have hu2 : ∀ l, l < 2 → Under [2, 2, -1] 2 l := fun l hl => hroot ▸ hr.tree.reach l (by show l < 3; omega)
  have hu : ∀ x l, x < 2 → l < 2 → (Under [2, 2, -1] x l ↔ x = l) := by
    intro x l hx hl
    have := leavesUnder_leaf C21.exTree_aux (h := x) hx
    have h2 : l ∈ leavesUnder 2 [2, 2, -1] x ↔ Under [2, 2, -1] x l := by rw [mem_leavesUnder]; exact ⟨fun h => h.2, fun h => ⟨hl, h⟩⟩
    rw [← h2, this, Finset.mem_singleton]
    exact eq_comm
  have hcell : CellCover 2 [2, 2, -1] 1 [⟨0, 0, 0⟩, ⟨1, 0, 0⟩] := by
    constructor
    · intro r hr; simp at hr; rcases hr with rfl | rfl <;> decide
    · intro l t hl ht
      obtain rfl : t = 0 := by omega
      refine ⟨l, ⟨⟨l, 0, 0⟩, ?_, (hu l l hl hl).mpr rfl, le_refl _, le_refl _⟩, ?_⟩
      · match l, hl with
        | 0, _ => rfl
        | 1, _ => rfl
      · rintro k ⟨x, hx, h, _, _⟩
        match k, hx with
        | 0, hx =>
          obtain rfl : (⟨0, 0, 0⟩ : Rect) = x := by simpa using hx
          exact (hu 0 l (by omega) hl).mp h
        | 1, hx =>
          obtain rfl : (⟨1, 0, 0⟩ : Rect) = x := by simpa using hx
          exact (hu 1 l (by omega) hl).mp h
        | k + 2, hx => simp at hx
  have hwhole : CellCover 2 [2, 2, -1] 1 [⟨2, 0, 0⟩] := by
    constructor
    · intro r hr; simp at hr; subst hr; decide
    · intro l t hl ht
      obtain rfl : t = 0 := by omega
      exact ⟨0, ⟨_, rfl, hu2 l hl, le_refl _, le_refl _⟩, fun k ⟨x, hx, _⟩ => by
        match k, hx with
        | 0, _ => rfl
        | k + 1, hx => simp at hx⟩
  have k1 := e4 _ hcell
  have k2 := e4 _ hwhole
  refine ⟨_, q, P, hc, e1, e3, ?_, ?_⟩
  · have c0 : dCells 2 [2, 2, -1] ⟨0, 0, 0⟩ = {(0, 0)} := by
      unfold dCells; rw [C21.exLeaves_aux.1]; rfl
    have c1 : dCells 2 [2, 2, -1] ⟨1, 0, 0⟩ = {(1, 0)} := by
      unfold dCells; rw [C21.exLeaves_aux.2.1]; rfl
    simp only [gainOf_cons, gainOf_nil, lossOf_cons, lossOf_nil, c0, c1, entQ, gainSeries_single, lossSeries_single] at k1
    unfold worth
    simpa using k1
  · have c2 : dCells 2 [2, 2, -1] ⟨2, 0, 0⟩ = {(0, 0), (1, 0)} := by
      unfold dCells; rw [C21.exLeaves_aux.2.2]; rfl
    simp only [gainOf_cons, gainOf_nil, lossOf_cons, lossOf_nil, c2, entQ, gainSeries, lossSeries] at k2
    unfold worth
    simpa using k2

/-- Two periods of spatiotemporal data may be worth more than the whole.  The data are `0 1` (leaf 0) and `2 1` (leaf 1), the
parameter `1/16`: the best partition of both slices is worth at most 0, the best partitions of the first slice alone and of the
second slice alone are together worth at least `1/8`. -/
theorem notPeriods : ∃ (c c1 c2 : DValuesN2 ℝ) (q q1 q2 : List (UTM (Quality ℝ))) (P P1 P2 : DPartition ℝ ℝ),
    DValuesN2.ofVec [[0, 1], [2, 1]] [2, 2, -1] = .ok c ∧ DValuesN2.ofVec [[0], [2]] [2, 2, -1] = .ok c1 ∧
    DValuesN2.ofVec [[1], [1]] [2, 2, -1] = .ok c2 ∧
    (DQualities.ofValues c.toDValues).computeQualities = .ok ⟨some c.toDValues, some q, c.md⟩ ∧
    (DQualities.ofValues c1.toDValues).computeQualities = .ok ⟨some c1.toDValues, some q1, c1.md⟩ ∧
    (DQualities.ofValues c2.toDValues).computeQualities = .ok ⟨some c2.toDValues, some q2, c2.md⟩ ∧
    dBestPartition q c.md (1 / 16 : ℝ) = .ok P ∧ dBestPartition q1 c1.md (1 / 16 : ℝ) = .ok P1 ∧
    dBestPartition q2 c2.md (1 / 16 : ℝ) = .ok P2 ∧
    worth (1 / 16 : ℝ) P.quality ≤ 0 ∧ 1 / 8 ≤ worth (1 / 16 : ℝ) P1.quality + worth (1 / 16 : ℝ) P2.quality := by
  obtain ⟨c, q, P, _, a1, a2, a3, a4, _⟩ := C21.notOptimalData
  obtain ⟨c1, q1, P1, b1, b2, b3, b4, _⟩ := one_aux 0 2 (fun x => if x.1 = 0 then 0 else 2) (by simp) (by simp) (by norm_num) (by norm_num)
  obtain ⟨c2, q2, P2, d1, d2, d3, _, d5⟩ := one_aux 1 1 (fun _ => 1) rfl rfl (by norm_num) (by norm_num)
  refine ⟨c, c1, c2, q, q1, q2, P, P1, P2, a1, b1, d1, a2, b2, d2, a3, b3, d3, ?_, ?_⟩
  · unfold worth; exact a4
  · have hg : gainOver ({(0, 0), (1, 0)} : Finset (Nat × Nat)) (fun _ => (1 : ℝ)) = 2 := by
      unfold gainOver xlog2
      norm_num
    have hl : lossOver ({(0, 0), (1, 0)} : Finset (Nat × Nat)) (fun _ => (1 : ℝ)) = 0 := by
      unfold lossOver
      rw [hg]
      norm_num
    rw [hg, hl] at d5
    linarith

/-! ## Examples -/

theorem fourTree_aux : IsTree 4 [4, 4, 5, 5, 6, 6, -1] 6 :=
  .ofCheck (fun h => if h < 4 then 2 else if h < 6 then 1 else 0) (by decide) (by decide) (by decide) (by decide)

/-- The tree with leaves 0 1 2 3 and inner nodes {0,1}, {2,3} is made of two pairs. -/
theorem made_aux : MadeOf 4 [4, 4, 5, 5, 6, 6, -1] 2 (fun _ => 2) (fun _ => [2, 2, -1]) (fun i x => 2 * i + x) where
  lt := fun i x hi hx => by omega
  all := fun l hl => ⟨l / 2, l % 2, by omega, by omega, by omega⟩
  once := fun i j x y hi hj hx hy h => by omega
  node := fun i h hi hh => by
    have hh : h < 3 := hh
    have u4 : ∀ a l : Nat, l < 4 → (Under [4, 4, 5, 5, 6, 6, -1] a l ↔ upCheck [4, 4, 5, 5, 6, 6, -1] a 2 l = true) := fun a l hl =>
      under_check fourTree_aux (fun h => if h < 4 then 2 else if h < 6 then 1 else 0) 2 (by decide) (by decide)
        (by show l < 7; omega)
    have u2 : ∀ a l : Nat, l < 2 → (Under [2, 2, -1] a l ↔ upCheck [2, 2, -1] a 2 l = true) := fun a l hl =>
      under_check C21.exTree_aux (fun h => if h < 2 then 1 else 0) 2 (by decide) (by decide) (by show l < 3; omega)
    have key : ∀ i < 2, ∀ h < 3, ∀ l < 4, (upCheck [4, 4, 5, 5, 6, 6, -1] (if h < 2 then 2 * i + h else 4 + i) 2 l = true ↔
        ∃ x, x < 2 ∧ 2 * i + x = l ∧ upCheck [2, 2, -1] h 2 x = true) := by decide
    refine ⟨if h < 2 then 2 * i + h else 4 + i, by show _ < 7; split <;> omega, fun l hl => ?_⟩
    rw [u4 _ l hl, key i hi h hh l hl]
    constructor
    · rintro ⟨x, hx, h1, h2⟩; exact ⟨x, hx, h1, (u2 h x hx).mpr h2⟩
    · rintro ⟨x, hx, h1, h2⟩; exact ⟨x, hx, h1, (u2 h x hx).mp h2⟩

/-- Four leaves with the values 3, 1, 4, 1: two pairs never beat the four. -/
example : ∃ (c : HValuesN1 ℝ) (d : Nat → HValuesN1 ℝ) (q : List (Quality ℝ)) (qs : Nat → List (Quality ℝ)),
    HValuesN1.ofVec [3, 1, 4, 1] [4, 4, 5, 5, 6, 6, -1] = .ok c ∧
    HValuesN1.ofVec [3, 1] [2, 2, -1] = .ok (d 0) ∧ HValuesN1.ofVec [4, 1] [2, 2, -1] = .ok (d 1) ∧
    (HQualities.ofValues c.toHValues).computeQualities = .ok ⟨some c.toHValues, some q, c.md⟩ ∧
    ∀ p : ℝ, ∃ (P : HPartition ℝ ℝ) (Ps : Nat → HPartition ℝ ℝ), hBestPartition q c.md p = .ok P ∧
      (∀ i, i < 2 → hBestPartition (qs i) (d i).md p = .ok (Ps i)) ∧
      worth p (Ps 0).quality + worth p (Ps 1).quality ≤ worth p P.quality := by
  obtain ⟨md, hm, hr⟩ := C57.meta_aux
  have hbal := balanced_nearestFirst C21.exTree_aux
    (.ofCheck (fun h => if h < 2 then 0 else 1) (by decide) (by decide) (by decide))
  obtain ⟨md2, hm2, _, hr2⟩ := C03.right 2 [2, 2, -1] 2 C21.exTree_aux hbal
  let f : Nat → ℝ := fun i => ([3, 1, 4, 1] : List ℝ).getD i 0
  let d : Nat → HValuesN1 ℝ := fun i => ⟨1, md2, table1 2 (fun x => f (2 * i + x))⟩
  have h1 : (⟨1, md, table1 4 f⟩ : HValuesN1 ℝ).Holds 4 md f := ⟨rfl, rfl, rfl⟩
  have h2 : ∀ i, (d i).Holds 2 md2 (fun x => f (2 * i + x)) := fun i => ⟨rfl, rfl, rfl⟩
  obtain ⟨q, qs, e1, _, e3⟩ := hierarchical (F := ℝ) 4 _ 2 _ _ _ made_aux
    (HValuesN1.toHValues ⟨1, md, table1 4 f⟩) (fun i => (d i).toHValues) hr (by decide)
    (fun i _ => hr2) (fun i _ => by show 2 < 3; omega) 1 _ h1.data (fun i _ => (h2 i).data)
  refine ⟨⟨1, md, table1 4 f⟩, d, q, qs, ?_, ?_, ?_, e1, fun p => ?_⟩
  · unfold HValuesN1.ofVec
    rw [show SIZE1 ([3, 1, 4, 1] : List ℝ) = 4 from rfl, hm]
    rfl
  · unfold HValuesN1.ofVec
    rw [show SIZE1 ([3, 1] : List ℝ) = 2 from rfl, hm2]
    rfl
  · unfold HValuesN1.ofVec
    rw [show SIZE1 ([4, 1] : List ℝ) = 2 from rfl, hm2]
    rfl
  · obtain ⟨P, Ps, a, b, c⟩ := e3 p
    exact ⟨P, Ps, a, b, by simpa [Finset.sum_range_succ] using c⟩

end Lp.C81
