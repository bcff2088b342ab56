import Verif.Proofs.SilentPad
import Verif.Proofs.SilentH
import Verif.Proofs.SearchShift
import Verif.Spec.Float
import Verif.Props.C16
import Verif.Props.C24
import Verif.Props.C48

/-!
# C97 — silent slices and leaves

Where the values are all zero, the best partitions still have to put the cells somewhere.  A part with a positive value begins and
ends with a slice that has one.  The other parts of an ordered partition are single slices, except the last part of the partition.
Silent slices put before and after the data change nothing else.  A hierarchical part is not larger than its positive values need.
-/

namespace Lp.C97
open Spec
variable {F : Type} [FloatP F ℝ] {u : ℝ}

/-- Ordered data: a part `s..e` with a positive value has one in slice `s` and one in slice `e`.  A part without one is a single
slice or the last part, and before a last part that has none there is a slice that has one. -/
theorem ordered (fl : FloatLaws F ℝ u) (v : OValues ℝ) (m n : Nat) (V : Nat → Nat → ℝ) (hn : n ≤ 65535)
    (hv : OData v m n V) (h0 : ∀ k i, k < m → i < n → 0 ≤ V k i) :
    ∃ q : UTM (Quality ℝ), (OQualities.ofValues v).computeQualities = .ok ⟨some v, some q⟩ ∧
      ∀ p : F, (0 : ℝ) ≤ FloatP.toK p → (FloatP.toK p : ℝ) ≤ 1 →
        ∃ P, oBestPartition q p = .ok P ∧
          ∀ x ∈ P.parts, ∃ s e : Nat, x.start = s ∧ x.end = e ∧
            ((∃ k i, k < m ∧ s ≤ i ∧ i ≤ e ∧ 0 < V k i) → (∃ k < m, 0 < V k s) ∧ (∃ k < m, 0 < V k e)) ∧
            ((∀ k i, k < m → s ≤ i → i ≤ e → V k i = 0) →
              (s = e ∨ e = n - 1) ∧ (e = n - 1 → 0 < s → ∃ k < m, 0 < V k (s - 1))) := by
  obtain ⟨q, e, hq⟩ := oq_object hv hn h0
  refine ⟨q, e, fun p _ hp1 => ?_⟩
  obtain ⟨P, L, h1, h2, _, ht⟩ := oBest_top hq p
  have hb : (0 : ℝ) ≤ wLoss p := wLoss_nonneg fl hp1
  refine ⟨P, h1, fun x hx => ?_⟩
  rw [h2, List.mem_map] at hx
  obtain ⟨I, hI, rfl⟩ := hx
  have hbd := ht.tiles.bounds I hI
  have loud : ∀ i, i < n → ¬ Quiet m V i → ∃ k < m, 0 < V k i := by
    intro i hi h
    unfold Quiet at h
    push Not at h
    obtain ⟨k, hk, hne⟩ := h
    exact ⟨k, hk, lt_of_le_of_ne (h0 k i hk hi) (Ne.symm hne)⟩
  refine ⟨I.1, I.2, rfl, rfl, ?_, ?_⟩
  · rintro ⟨k, i, hk, hi1, hi2, hp⟩
    obtain ⟨a1, a2⟩ := ht.edges hb h0 hI hk hi1 hi2 hp
    exact ⟨loud _ (by omega) a1, loud _ (by omega) a2⟩
  · intro hz
    have hzq : ∀ i, I.1 ≤ i → i ≤ I.2 → Quiet m V i := fun i h1 h2 k hk => hz k i hk h1 h2
    refine ⟨ht.single hI hzq, fun hl hs => ?_⟩
    exact loud _ (by omega) (ht.beforeLast hb h0 hI (hzq _ (by omega) le_rfl) hl hs)

/-- Ordered data with some positive value, `c` silent slices put before them and `d` after (if `d` is positive, the last slice of
the data has a positive value): the silent slices before are parts of one slice, those after are one part together, and the parts
of the data and the quality are as before. -/
theorem padded (fl : FloatLaws F ℝ u) (v v' : OValues ℝ) (m n c d : Nat) (V W : Nat → Nat → ℝ) (hn : c + n + d ≤ 65535)
    (hv : OData v m n V) (hv' : OData v' m (c + n + d) W) (h0 : ∀ k i, k < m → i < n → 0 ≤ V k i)
    (hW : ∀ k < m, ∀ i < n, W k (c + i) = V k i) (hz : ∀ k < m, ∀ i < c + n + d, i < c ∨ c + n ≤ i → W k i = 0)
    (hpos : ∃ k < m, ∃ i < n, 0 < V k i) (hlast : 0 < d → ∃ k < m, 0 < V k (n - 1)) :
    ∃ q q' : UTM (Quality ℝ), (OQualities.ofValues v).computeQualities = .ok ⟨some v, some q⟩ ∧
      (OQualities.ofValues v').computeQualities = .ok ⟨some v', some q'⟩ ∧
      ∀ p : F, (0 : ℝ) ≤ FloatP.toK p → (FloatP.toK p : ℝ) ≤ 1 →
        ∃ P P', oBestPartition q p = .ok P ∧ oBestPartition q' p = .ok P' ∧
          P'.parts.map (fun x => (x.start, x.end)) = (List.range c).map (fun i : Nat => (((i : Int), (i : Int)) : Int × Int)) ++
            (P.parts.map (fun x => ((x.start + (c : Int), x.end + (c : Int)) : Int × Int)) ++
              if d = 0 then [] else [(((c + n : Nat) : Int), ((c + n + d - 1 : Nat) : Int))]) ∧
          P'.quality = P.quality := by
  have w0 : ∀ k i, k < m → i < c + n + d → 0 ≤ W k i := by
    intro k i hk hi
    by_cases h : i < c ∨ c + n ≤ i
    · exact (hz k hk i hi h).ge
    · have := hW k hk (i - c) (by omega)
      rw [show c + (i - c) = i by omega] at this
      rw [this]
      exact h0 k _ hk (by omega)
  obtain ⟨q, e, hq⟩ := oq_object hv (by omega) h0
  obtain ⟨q', e', hq'⟩ := oq_object hv' hn w0
  refine ⟨q, q', e, e', fun p _ hp1 => ?_⟩
  obtain ⟨P, L, h1, h2, h3, ht⟩ := oBest_top hq p
  obtain ⟨P', L', h1', h2', h3', ht'⟩ := oBest_top hq' p
  obtain ⟨r1, r2, r3⟩ := OTop.padded (wLoss_nonneg fl hp1) h0 (fun k hk i hi => by rw [Nat.add_comm]; exact hW k hk i hi)
    (fun i hi h k hk => hz k hk i hi h)
    (by obtain ⟨k, hk, i, hi, hp⟩ := hpos; exact ⟨i, hi, fun h => by rw [h k hk] at hp; exact lt_irrefl _ hp⟩)
    (fun hd h => by obtain ⟨k, hk, hp⟩ := hlast hd; rw [h k hk] at hp; exact lt_irrefl _ hp) ht ht'
  refine ⟨P, P', h1, h1', ?_, ?_⟩
  · rw [h2', h2, r1, List.map_map, List.map_append, List.map_append, List.map_map, alone, List.map_map]
    congr 1
    congr 1
    · rw [List.map_map]
      refine List.map_congr_left (fun I _ => ?_)
      simp only [Function.comp, oPartOf, later, Nat.cast_add]
    · split <;> rfl
  · rw [h3, h3']
    have a : gainOf (fun x : Nat × Nat => entQ m W (oCells (x.1, x.2))) L' = gainOf (fun x : Nat × Nat => entQ m V (oCells (x.1, x.2))) L := r2
    have b : lossOf (fun x : Nat × Nat => entQ m W (oCells (x.1, x.2))) L' = lossOf (fun x : Nat × Nat => entQ m V (oCells (x.1, x.2))) L := r3
    rw [a, b]

/-- Searches inside `[0,1]` on the data and on the data with silent slices around it: both end in the same fault, or both find the
same parameters and the same qualities for them. -/
theorem paddedSearch (fl : FloatLaws F ℝ u) (v v' : OValues ℝ) (m n c d : Nat) (V W : Nat → Nat → ℝ) (hn : c + n + d ≤ 65535)
    (hv : OData v m n V) (hv' : OData v' m (c + n + d) W) (h0 : ∀ k i, k < m → i < n → 0 ≤ V k i)
    (hW : ∀ k < m, ∀ i < n, W k (c + i) = V k i) (hz : ∀ k < m, ∀ i < c + n + d, i < c ∨ c + n ≤ i → W k i = 0)
    (hpos : ∃ k < m, ∃ i < n, 0 < V k i) (hlast : 0 < d → ∃ k < m, 0 < V k (n - 1)) :
    ∃ q q' : UTM (Quality ℝ), (OQualities.ofValues v).computeQualities = .ok ⟨some v, some q⟩ ∧
      (OQualities.ofValues v').computeQualities = .ok ⟨some v', some q'⟩ ∧
      ∀ (strict : Bool) (fuel : Nat) (t lo hi : F), (0 : ℝ) ≤ FloatP.toK lo → (FloatP.toK lo : ℝ) ≤ FloatP.toK hi →
        (FloatP.toK hi : ℝ) ≤ 1 → ∀ st st',
        (∀ e, computeBestPartitions (oOps q) strict fuel t lo hi st = .error e ↔
          computeBestPartitions (oOps q') strict fuel t lo hi st' = .error e) ∧
        ∀ x y, computeBestPartitions (oOps q) strict fuel t lo hi st = .ok x →
          computeBestPartitions (oOps q') strict fuel t lo hi st' = .ok y → y.pList = x.pList ∧ y.qualityList = x.qualityList := by
  obtain ⟨q, q', e, e', hP⟩ := padded fl v v' m n c d V W hn hv hv' h0 hW hz hpos hlast
  have w0 : ∀ k i, k < m → i < c + n + d → 0 ≤ W k i := by
    intro k i hk hi
    by_cases h : i < c ∨ c + n ≤ i
    · exact (hz k hk i hi h).ge
    · have := hW k hk (i - c) (by omega)
      rw [show c + (i - c) = i by omega] at this
      rw [this]
      exact h0 k _ hk (by omega)
  obtain ⟨q1, f1, hq⟩ := oq_object hv (by omega) h0
  obtain ⟨q2, f2, hq'⟩ := oq_object hv' hn w0
  obtain rfl : q = q1 := by have := C24.res_aux e f1; simpa using this
  obtain rfl : q' = q2 := by have := C24.res_aux e' f2; simpa using this
  refine ⟨q, q', e, e', fun strict fuel t lo hi hlo hl hhi st st' => ?_⟩
  have main := search_corr fl (.ordered q n _ hq) (.ordered q' (c + n + d) _ hq') id Function.injective_id (by
    intro p hp0 hp1 X X' eX eX'
    obtain ⟨P, P', g1, g2, _, g3⟩ := hP p hp0 hp1
    obtain rfl := C24.res_aux eX g1
    obtain rfl := C24.res_aux eX' g2
    exact g3) strict fuel t lo hi hlo hl hhi st st'
  generalize computeBestPartitions (oOps q) strict fuel t lo hi st = a at main ⊢
  generalize computeBestPartitions (oOps q') strict fuel t lo hi st' = b at main ⊢
  cases a <;> cases b <;> simp only [RelRes] at main
  · subst main
    exact ⟨fun e => by simp, fun x y hx => by cases hx⟩
  · refine ⟨fun e => by simp, fun x y hx hy => ?_⟩
    cases hx; cases hy
    exact ⟨main.1, by rw [main.2]; simp⟩

/-- Hierarchical data: if the node of a part has a positive value, and some node under it does not have all its leaves, then some
leaf of the part that is not under this other node has a positive value. -/
theorem hierarchical (fl : FloatLaws F ℝ u) (leaves : Nat) (parents : List Int) (v : HValues ℝ)
    (hmd : RightMeta leaves parents v.md) (hlt : leaves < parents.length) (m : Nat) (V : Nat → Nat → ℝ)
    (hv : HData v m leaves V) (h0 : ∀ k h, k < m → h < leaves → 0 ≤ V k h) :
    ∃ q : List (Quality ℝ), (HQualities.ofValues v).computeQualities = .ok ⟨some v, some q, v.md⟩ ∧
      ∀ p : F, (0 : ℝ) ≤ FloatP.toK p → (FloatP.toK p : ℝ) < 1 →
        ∃ P, hBestPartition q v.md p = .ok P ∧
          ∀ x ∈ P.parts, (∃ k < m, ∃ l < leaves, Under parents x.h l ∧ 0 < V k l) →
            ∀ c < parents.length, Under parents x.h c → (∃ l < leaves, Under parents x.h l ∧ ¬ Under parents c l) →
              ∃ k < m, ∃ l < leaves, Under parents x.h l ∧ ¬ Under parents c l ∧ 0 < V k l := by
  obtain ⟨q, e, hq⟩ := hq_object hmd hlt hv h0
  refine ⟨q, e, fun p _ hp1 => ?_⟩
  obtain ⟨P, L, h1, h2, h3⟩ := hBest_silent hmd hlt h0 hq p (wLoss_pos fl hp1)
  refine ⟨P, h1, fun x hx => ?_⟩
  rw [h2, List.mem_map] at hx
  obtain ⟨y, hy, rfl⟩ := hx
  exact h3 y hy

/-- Spatiotemporal data: a part with a positive value has one in its first and one in its last slice.  If moreover it is the last
part of its node, and a child of this node does not have all its leaves, it has one outside that child. -/
theorem spatiotemporal (fl : FloatLaws F ℝ u) (leaves : Nat) (parents : List Int) (v : DValues ℝ)
    (hmd : RightMeta leaves parents v.md) (hlt : leaves < parents.length) (m n : Nat) (hn0 : 0 < n) (hn : n ≤ 65535)
    (hb : leaves * n < 2147483648) (V : Nat → Nat × Nat → ℝ) (hv : DData v m leaves n V)
    (h0 : ∀ k h x, k < m → h < leaves → x < n → 0 ≤ V k (h, x)) :
    ∃ q : List (UTM (Quality ℝ)), (DQualities.ofValues v).computeQualities = .ok ⟨some v, some q, v.md⟩ ∧
      ∀ p : F, (0 : ℝ) ≤ FloatP.toK p → (FloatP.toK p : ℝ) ≤ 1 →
        ∃ P, dBestPartition q v.md p = .ok P ∧
          ∀ x ∈ P.parts,
            (∃ k l i, k < m ∧ l < leaves ∧ Under parents x.h l ∧ x.start ≤ i ∧ i ≤ x.end ∧ 0 < V k (l, i)) →
            (∃ k l, k < m ∧ l < leaves ∧ Under parents x.h l ∧ 0 < V k (l, x.start)) ∧
            (∃ k l, k < m ∧ l < leaves ∧ Under parents x.h l ∧ 0 < V k (l, x.end)) ∧
            ∀ c, ParentIs parents c x.h → (∃ l < leaves, Under parents x.h l ∧ ¬ Under parents c l) →
              (∀ y ∈ P.parts, y.h = x.h → y.end ≤ x.end) →
              ∃ k l i, k < m ∧ l < leaves ∧ Under parents x.h l ∧ ¬ Under parents c l ∧ x.start ≤ i ∧ i ≤ x.end ∧
                0 < V k (l, i) := by
  obtain ⟨q, e, hq⟩ := dq_object hmd hlt hn hb hv h0
  refine ⟨q, e, fun p _ hp1 => ?_⟩
  obtain ⟨P, L, h1, h2, h3⟩ := dBest_silentSlices hmd hn0 hn h0 hq p (wLoss_nonneg fl hp1)
  refine ⟨P, h1, ?_⟩
  rw [h2]
  intro x hx hp
  obtain ⟨R, hR, rfl⟩ := List.mem_map.mp hx
  obtain ⟨k, l, i, hk, hl, a1, a2, a3, a4⟩ := hp
  obtain ⟨b1, b2, b3⟩ := h3 R hR ⟨k, l, i, hk, hl, ⟨a1, a2, a3⟩, a4⟩
  refine ⟨b1, b2, fun c hc hlc hlast => ?_⟩
  obtain ⟨k', l', i', c1, c2, ⟨c3, c4, c5⟩, c6, c7⟩ := b3 c hc hlc
    (fun y hy he => hlast (dPartOf v.md (fun h i j => entQ m V (dCells leaves parents ⟨h, i, j⟩)) y) (List.mem_map.mpr ⟨y, hy, rfl⟩) he)
  exact ⟨k', l', i', c1, c2, c3, c6, c4, c5, c7⟩

/-- The value 3 alone, and 0, 0, 3, 0, 0: at every parameter two parts of one slice, the part of the value, and one part of
two slices. -/
example (p : ℝ) (hp0 : 0 ≤ p) (hp1 : p ≤ 1) : ∃ w q P,
    (OQualities.ofValues (OValuesN1.ofVec ([0, 0, 3, 0, 0] : List ℝ)).toOValues).computeQualities = .ok ⟨w, some q⟩ ∧
    oBestPartition (F := ℝ) q p = .ok P ∧
    P.parts.map (fun x => (x.start, x.end)) = [(0, 0), (1, 1), (2, 2), (3, 4)] := by
  let f : Nat → ℝ := fun i => ([0, 0, 3, 0, 0] : List ℝ).getD i 0
  let g : Nat → ℝ := fun i => ([3] : List ℝ).getD i 0
  have hd : OData (OValuesN1.ofVec ([0, 0, 3, 0, 0] : List ℝ)).toOValues 1 5 (fun _ => f) := (OValuesN1.ofVec_holds (O := 5) f).data
  have hg : OData (OValuesN1.ofVec ([3] : List ℝ)).toOValues 1 1 (fun _ => g) := (OValuesN1.ofVec_holds (O := 1) g).data
  obtain ⟨q, q', h1, h2, h3⟩ := padded (F := ℝ) (exactLaws ℝ) _ _ 1 1 2 2 (fun _ => g) (fun _ => f) (by norm_num) hg hd
    (by intro k i _ hi; obtain rfl : i = 0 := by omega
        simp [g])
    (by intro k _ i hi; obtain rfl : i = 0 := by omega
        simp [f, g])
    (by
      intro k _ i hi h
      match i, hi, h with
      | 0, _, _ => simp [f]
      | 1, _, _ => simp [f]
      | 2, _, h => omega
      | 3, _, _ => simp [f]
      | 4, _, _ => simp [f])
    ⟨0, one_pos, 0, one_pos, by simp [g]⟩ (fun _ => ⟨0, one_pos, by simp [g]⟩)
  obtain ⟨P, P', e1, e2, e3, _⟩ := h3 p hp0 hp1
  refine ⟨_, q', P', h2, e2, ?_⟩
  rw [e3]
  obtain ⟨q1, k1, k2⟩ := oq_object hg (by norm_num) (fun k i _ hi => by
    obtain rfl : i = 0 := by omega
    simp [g])
  obtain rfl : q = q1 := by
    have := C24.res_aux h1 k1
    simpa using this
  obtain ⟨P1, L, l1, l2, _, l4⟩ := oBest_top k2 p
  obtain rfl := C24.res_aux e1 l1
  have hL : L = [(0, 0)] := by
    have ht := l4.tiles
    cases ht with
    | @cons a b c L h1 h2 h3 =>
      obtain rfl : c = 0 := by have := h3.le; omega
      rw [h3.nil_of_eq (by omega)]
  rw [l2, hL]
  rfl

/-- The hypotheses of `paddedSearch` for the values 1, 3 and 0, 1, 3, 0, 0. -/
example := paddedSearch (F := ℝ) (exactLaws ℝ) (OValuesN1.ofVec ([1, 3] : List ℝ)).toOValues
  (OValuesN1.ofVec ([0, 1, 3, 0, 0] : List ℝ)).toOValues 1 2 1 2 (fun _ i => ([1, 3] : List ℝ).getD i 0)
  (fun _ i => ([0, 1, 3, 0, 0] : List ℝ).getD i 0) (by norm_num)
  (OValuesN1.ofVec_holds (O := 2) (fun i => ([1, 3] : List ℝ).getD i 0)).data
  (OValuesN1.ofVec_holds (O := 5) (fun i => ([0, 1, 3, 0, 0] : List ℝ).getD i 0)).data
  (by intro k i _ hi
      match i, hi with
      | 0, _ => simp
      | 1, _ => simp)
  (by intro k _ i hi
      match i, hi with
      | 0, _ => simp
      | 1, _ => simp)
  (by intro k _ i hi h
      match i, hi, h with
      | 0, _, _ => simp
      | 1, _, h => omega
      | 2, _, h => omega
      | 3, _, _ => simp
      | 4, _, _ => simp)
  ⟨0, one_pos, 1, by norm_num, by simp⟩ (fun _ => ⟨0, one_pos, by simp⟩)

/-- The same data, by the first theorem: a part is a single slice, or the last one. -/
example := ordered (F := ℝ) (exactLaws ℝ) (OValuesN1.ofVec ([0, 0, 3, 0, 0] : List ℝ)).toOValues 1 5
  (fun _ i => ([0, 0, 3, 0, 0] : List ℝ).getD i 0) (by norm_num)
  (OValuesN1.ofVec_holds (O := 5) (fun i => ([0, 0, 3, 0, 0] : List ℝ).getD i 0)).data (by
    intro k i _ hi
    match i, hi with
    | 0, _ => simp
    | 1, _ => simp
    | 2, _ => simp
    | 3, _ => simp
    | 4, _ => simp)

/-- Hierarchical: the tree of C03, values 0, 0, 2, 3: below 1 the root is not a part. -/
example (p : ℝ) (hp0 : 0 ≤ p) (hp1 : p < 1) : ∃ c q P,
    HValuesN1.ofVec (table1 4 (fun i => ([0, 0, 2, 3] : List ℝ).getD i 0)) [4, 4, 6, 6, 5, -1, 5] = .ok c ∧
    (HQualities.ofValues c.toHValues).computeQualities = .ok ⟨some c.toHValues, some q, c.md⟩ ∧
    hBestPartition (F := ℝ) q c.md p = .ok P ∧ ∀ x ∈ P.parts, x.h ≠ 5 := by
  let f : Nat → ℝ := fun i => ([0, 0, 2, 3] : List ℝ).getD i 0
  obtain ⟨md, hm, _, hr⟩ := C03.right 4 [4, 4, 6, 6, 5, -1, 5] 5 C03.sevenTree C03.sevenNearest
  obtain ⟨c, hc, hcm⟩ : ∃ c : HValuesN1 ℝ, HValuesN1.ofVec (table1 4 f) [4, 4, 6, 6, 5, -1, 5] = .ok c ∧ c.md = md := by
    unfold HValuesN1.ofVec
    rw [SIZE1_table1, hm]
    exact ⟨_, rfl, rfl⟩
  obtain ⟨_, _, hh⟩ := HValuesN1.ofVec_holds _ hc
  obtain ⟨q, h1, h2⟩ := hierarchical (F := ℝ) (exactLaws ℝ) 4 _ c.toHValues (by subst hcm; exact hr) (by decide) 1 _ hh.data (by
    intro k i _ hi
    match i, hi with
    | 0, _ => simp [f]
    | 1, _ => simp [f]
    | 2, _ => simp [f]
    | 3, _ => simp [f])
  obtain ⟨P, e1, e2⟩ := h2 p hp0 hp1
  refine ⟨c, q, P, hc, h1, e1, fun x hx h5 => ?_⟩
  have u2 : Under [4, 4, 6, 6, 5, -1, 5] 5 2 := .up (p := 6) rfl (.up (p := 5) rfl .self)
  have u0 : Under [4, 4, 6, 6, 5, -1, 5] 5 0 := .up (p := 4) rfl (.up (p := 5) rfl .self)
  have n0 : ¬ Under [4, 4, 6, 6, 5, -1, 5] 6 0 := by
    intro h
    rcases under_up h with h | ⟨a, ha, h⟩
    · omega
    obtain rfl : a = 4 := by
      have ha : (some (4 : Int)) = some (a : Int) := ha
      have := Option.some.inj ha
      omega
    rcases under_up h with h | ⟨a, ha, h⟩
    · omega
    obtain rfl : a = 5 := by
      have ha : (some (5 : Int)) = some (a : Int) := ha
      have := Option.some.inj ha
      omega
    rcases under_up h with h | ⟨a, ha, h⟩
    · omega
    have ha : (some (-1 : Int)) = some (a : Int) := ha
    have := Option.some.inj ha
    omega
  obtain ⟨k, _, l, hl, hu, hnu, hp⟩ := e2 x hx ⟨0, one_pos, 2, by norm_num, by rw [h5]; exact u2, by simp [f]⟩ 6 (by decide)
    (by rw [h5]; exact .up (p := 5) rfl .self) ⟨0, by norm_num, by rw [h5]; exact u0, n0⟩
  match l, hl with
  | 0, _ => simp [f] at hp
  | 1, _ => simp [f] at hp
  | 2, _ => exact hnu (.up (p := 6) rfl .self)
  | 3, _ => exact hnu (.up (p := 6) rfl .self)

/-- Spatiotemporal: the same tree, three slices, nothing in slice 0 and value `h + 1` in the others: no part has slice 0 and others. -/
example (p : ℝ) (hp0 : 0 ≤ p) (hp1 : p ≤ 1) : ∃ c q P,
    DValuesN2.ofVec (table2 4 3 (fun x => if x.2 = 0 then 0 else (x.1 + 1 : ℝ))) [4, 4, 6, 6, 5, -1, 5] = .ok c ∧
    (DQualities.ofValues c.toDValues).computeQualities = .ok ⟨some c.toDValues, some q, c.md⟩ ∧
    dBestPartition (F := ℝ) q c.md p = .ok P ∧ ∀ x ∈ P.parts, x.h < 7 → x.start = 0 → x.end = 0 := by
  obtain ⟨md, hm, _, hr⟩ := C03.right 4 [4, 4, 6, 6, 5, -1, 5] 5 C03.sevenTree C03.sevenNearest
  have hc : DValuesN2.ofVec (table2 4 3 (fun x => if x.2 = 0 then 0 else (x.1 + 1 : ℝ))) [4, 4, 6, 6, 5, -1, 5] =
      .ok ⟨1, 3, md, table2 4 3 (fun x => if x.2 = 0 then 0 else (x.1 + 1 : ℝ))⟩ := by
    unfold DValuesN2.ofVec
    rw [SIZE1_table2, hm, SIZE2_table2 (by norm_num)]
    rfl
  obtain ⟨_, _, hh⟩ := DValuesN2.ofVec_holds (by norm_num) _ hc
  obtain ⟨q, h1, h2⟩ := spatiotemporal (F := ℝ) (exactLaws ℝ) 4 _
    (DValuesN2.toDValues ⟨1, 3, md, table2 4 3 (fun x => if x.2 = 0 then 0 else (x.1 + 1 : ℝ))⟩) hr (by decide) 1 3
    (by norm_num) (by norm_num) (by norm_num) (fun _ x => if x.2 = 0 then 0 else (x.1 + 1 : ℝ)) hh.data
    (fun k h x _ _ _ => by show (0 : ℝ) ≤ if x = 0 then 0 else (h + 1 : ℝ); split <;> positivity)
  obtain ⟨P, e1, e2⟩ := h2 p hp0 hp1
  refine ⟨_, q, P, hc, h1, e1, fun x hx hx7 hs => ?_⟩
  by_contra he
  obtain ⟨l, hl, hu⟩ := hr.tree.exists_leaf (h := x.h) hx7
  obtain ⟨⟨k, l', _, _, _, hp⟩, _⟩ := e2 x hx ⟨0, l, 1, one_pos, hl, hu, by omega, by omega, by
    show (0 : ℝ) < if (1 : Nat) = 0 then 0 else (l + 1 : ℝ)
    rw [if_neg one_ne_zero]; positivity⟩
  rw [hs] at hp
  simp at hp

end Lp.C97
