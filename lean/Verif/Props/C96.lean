import Verif.Spec.Means
import Verif.Proofs.Average
import Verif.Spec.Float
import Verif.Props.C16
import Verif.Props.C24
import Verif.Props.C48

/-!
# C96 — aggregating aggregated data changes nothing

If every value is replaced by the mean of its part in the best partition at `p`, then the best partition at `p` of these means has
the same parts; it loses nothing, and its gain is the gain and the loss of the first.
-/

namespace Lp.C96
open Spec
open scoped BigOperators
variable {F : Type} [FloatP F ℝ] {u : ℝ}

/-- Ordered data, with a positive value in every slice. -/
theorem ordered (fl : FloatLaws F ℝ u) (v : OValues ℝ) (m n : Nat) (V : Nat → Nat → ℝ) (hn0 : 0 < n) (hn : n ≤ 65535)
    (hv : OData v m n V) (h0 : ∀ k i, k < m → i < n → 0 ≤ V k i) (hp : ∀ i < n, ∃ k < m, 0 < V k i)
    (p : F) (hp0 : (0 : ℝ) ≤ FloatP.toK p) (hp1 : (FloatP.toK p : ℝ) ≤ 1) :
    ∃ (q : UTM (Quality ℝ)) (P : OPartition F ℝ), (OQualities.ofValues v).computeQualities = .ok ⟨some v, some q⟩ ∧
      oBestPartition q p = .ok P ∧ (∃ W, IntervalMeans m V W (P.parts.map (fun x => (x.start, x.end)))) ∧
      ∀ (v' : OValues ℝ) (W : Nat → Nat → ℝ), OData v' m n W → IntervalMeans m V W (P.parts.map (fun x => (x.start, x.end))) →
        ∃ (q' : UTM (Quality ℝ)) (P' : OPartition F ℝ), (OQualities.ofValues v').computeQualities = .ok ⟨some v', some q'⟩ ∧
          oBestPartition q' p = .ok P' ∧
          P'.parts.map (fun x => (x.start, x.end)) = P.parts.map (fun x => (x.start, x.end)) ∧
          P'.quality = ⟨P.quality.gain + P.quality.loss, 0⟩ := by
  obtain ⟨q, e, hq⟩ := oq_object hv hn h0
  have start := oBest_average hn0 h0 hp hq hq p hp0 (wLoss_nonneg fl hp1)
  obtain ⟨P, L, h1, h2, ht, _⟩ := start
  refine ⟨q, P, e, h1, ?_, ?_⟩
  · obtain ⟨W, hW⟩ := (tiles_cuts ht hn0).averages m V
    refine ⟨W, ?_⟩
    intro a b hab k hk i h3 h4
    rw [h2, List.map_map] at hab
    obtain ⟨I, hI, hab⟩ := List.mem_map.mp hab
    have a1 : ((I.1 : Nat) : Int) = a := congrArg Prod.fst hab
    have a2 : ((I.2 : Nat) : Int) = b := congrArg Prod.snd hab
    have hb := ht.bounds I hI
    rw [hW k hk I hI i (by simp only [oCells, Finset.mem_Icc]; omega)]
    have b1 : I.1 = a := by exact_mod_cast a1
    have b2 : I.2 = b := by exact_mod_cast a2
    simp only [oCells, Nat.card_Icc, b1, b2]
    rw [Nat.cast_sub (by omega)]
    push_cast
    congr 1
    ring
  intro v' W hv' hmean
  have hW : Averages m V W oCells L := by
    intro k hk I hI i hi
    simp only [oCells, Finset.mem_Icc] at hi
    have hb := ht.bounds I hI
    have := hmean I.1 I.2 (by rw [h2, List.map_map]; exact List.mem_map.mpr ⟨I, hI, rfl⟩) k hk i hi.1 hi.2
    rw [this]
    simp only [oCells, Nat.card_Icc]
    rw [Nat.cast_sub (by omega)]
    push_cast
    congr 1
    ring
  have hL := tiles_cuts ht hn0
  have hnn := averages_nonneg hL hW (fun k hk x hx => h0 k x hk (by simp only [oCells, Finset.mem_Icc] at hx; omega))
  obtain ⟨q', e', hq'⟩ := oq_object hv' hn (fun k i hk hi => (hnn k hk i (by simp only [oCells, Finset.mem_Icc]; omega)).1)
  obtain ⟨P0, L0, g1, g2, _, g4⟩ := oBest_average hn0 h0 hp hq hq' p hp0 (wLoss_nonneg fl hp1)
  obtain rfl := C24.res_aux h1 g1
  have hinj : L0.map (oPartOf (fun i j => entQ m V (oCells (i, j)))) = L.map (oPartOf (fun i j => entQ m V (oCells (i, j)))) := by
    rw [← g2, h2]
  have hLL : L0 = L := by
    refine List.map_injective_iff.mpr ?_ hinj
    intro I J hIJ
    have a1 : ((I.1 : Nat) : Int) = J.1 := congrArg OPart.start hIJ
    have a2 : ((I.2 : Nat) : Int) = J.2 := congrArg OPart.end hIJ
    exact Prod.ext (by exact_mod_cast a1) (by exact_mod_cast a2)
  subst hLL
  obtain ⟨P', k1, k2, k3⟩ := g4 hW
  refine ⟨q', P', e', k1, ?_, k3⟩
  rw [k2, g2, List.map_map, List.map_map]
  rfl

/-- Hierarchical data. -/
theorem hierarchical (fl : FloatLaws F ℝ u) (leaves : Nat) (parents : List Int) (v : HValues ℝ)
    (hmd : RightMeta leaves parents v.md) (hlt : leaves < parents.length) (m : Nat) (V : Nat → Nat → ℝ)
    (hv : HData v m leaves V) (h0 : ∀ k h, k < m → h < leaves → 0 ≤ V k h)
    (p : F) (hp0 : (0 : ℝ) ≤ FloatP.toK p) (hp1 : (FloatP.toK p : ℝ) ≤ 1) :
    ∃ (q : List (Quality ℝ)) (P : HPartition F ℝ),
      (HQualities.ofValues v).computeQualities = .ok ⟨some v, some q, v.md⟩ ∧ hBestPartition q v.md p = .ok P ∧
      (∃ W, NodeMeans leaves parents m V W (P.parts.map (fun x => x.h))) ∧
      ∀ (v' : HValues ℝ) (W : Nat → Nat → ℝ), v'.md = v.md → HData v' m leaves W →
        NodeMeans leaves parents m V W (P.parts.map (fun x => x.h)) →
        ∃ (q' : List (Quality ℝ)) (P' : HPartition F ℝ),
          (HQualities.ofValues v').computeQualities = .ok ⟨some v', some q', v'.md⟩ ∧ hBestPartition q' v'.md p = .ok P' ∧
          P'.parts.map (fun x => x.h) = P.parts.map (fun x => x.h) ∧
          P'.quality = ⟨P.quality.gain + P.quality.loss, 0⟩ := by
  obtain ⟨q, e, hq⟩ := hq_object hmd hlt hv h0
  obtain ⟨P, L, h1, h2, hc, _⟩ := hBest_average hmd hlt h0 hq hq p hp0 (wLoss_nonneg fl hp1)
  have hnodes : P.parts.map (fun x => x.h) = L := by
    rw [h2, List.map_map]
    exact List.map_id L
  refine ⟨q, P, e, h1, ?_, ?_⟩
  · obtain ⟨W, hW⟩ := (leafCover_cuts hmd.tree hc).averages m V
    refine ⟨W, ?_⟩
    intro h hh k hk l hl hu
    rw [hnodes] at hh
    exact hW k hk h hh l (mem_leavesUnder.mpr ⟨hl, hu⟩)
  intro v' W hmd' hv' hmean
  have hW : Averages m V W (leavesUnder leaves parents) L := by
    intro k hk h hh l hl
    exact hmean h (by rw [hnodes]; exact hh) k hk l (mem_leavesUnder.mp hl).1 (mem_leavesUnder.mp hl).2
  have hL := leafCover_cuts hmd.tree hc
  have hnn := averages_nonneg hL hW (fun k hk x hx => h0 k x hk (mem_leavesUnder.mp hx).1)
  obtain ⟨q', e', hq'⟩ := hq_object (v := v') (by rw [hmd']; exact hmd) hlt hv' (fun k l hk hl => (hnn k hk l (by
    rw [leavesUnder_root hmd.tree, Finset.mem_range]; exact hl)).1)
  obtain ⟨P0, L0, g1, g2, _, g4⟩ := hBest_average hmd hlt h0 hq hq' p hp0 (wLoss_nonneg fl hp1)
  obtain rfl := C24.res_aux h1 g1
  have hLL : L0 = L := by
    rw [← hnodes, g2, List.map_map]
    exact (List.map_id L0).symm
  subst hLL
  obtain ⟨P', k1, k2, k3⟩ := g4 hW
  refine ⟨q', P', e', by rw [hmd']; exact k1, ?_, k3⟩
  rw [k2, g2, List.map_map, List.map_map]
  rfl

/-- Ordered values 1, 2, 2, 5 and the means over the parts of their best partition, at any parameter. -/
example (p : ℝ) (hp0 : 0 ≤ p) (hp1 : p ≤ 1) : ∃ w q P W w' q' P',
    (OQualities.ofValues (OValuesN1.ofVec ([1, 2, 2, 5] : List ℝ)).toOValues).computeQualities = .ok ⟨w, some q⟩ ∧
    oBestPartition (F := ℝ) q p = .ok P ∧
    IntervalMeans 1 (fun _ i => ([1, 2, 2, 5] : List ℝ).getD i 0) (fun _ => W) (P.parts.map (fun x => (x.start, x.end))) ∧
    (OQualities.ofValues (OValuesN1.ofVec (table1 4 W)).toOValues).computeQualities = .ok ⟨w', some q'⟩ ∧
    oBestPartition (F := ℝ) q' p = .ok P' ∧
    P'.parts.map (fun x => (x.start, x.end)) = P.parts.map (fun x => (x.start, x.end)) ∧ P'.quality.loss = 0 := by
  let f : Nat → ℝ := fun i => ([1, 2, 2, 5] : List ℝ).getD i 0
  have hd : OData (OValuesN1.ofVec ([1, 2, 2, 5] : List ℝ)).toOValues 1 4 (fun _ => f) := (OValuesN1.ofVec_holds (O := 4) f).data
  have hpos : ∀ i, i < 4 → 0 < f i := by
    intro i hi
    match i, hi with
    | 0, _ => simp [f]
    | 1, _ => simp [f]
    | 2, _ => simp [f]
    | 3, _ => simp [f]
  obtain ⟨q, P, h1, h2, ⟨W, h3⟩, h4⟩ := ordered (F := ℝ) (exactLaws ℝ) _ 1 4 _ (by norm_num) (by norm_num) hd
    (fun k i _ hi => (hpos i hi).le) (fun i hi => ⟨0, one_pos, hpos i hi⟩) p hp0 hp1
  have h3' : IntervalMeans 1 (fun _ => f) (fun _ => W 0) (P.parts.map (fun x => (x.start, x.end))) := by
    intro a b hab k hk i h h'
    obtain rfl : k = 0 := by omega
    exact h3 a b hab 0 hk i h h'
  have hd' : OData (OValuesN1.ofVec (table1 4 (W 0))).toOValues 1 4 (fun _ => W 0) := (OValuesN1.ofVec_holds (O := 4) (W 0)).data
  obtain ⟨q', P', k1, k2, k3, k4⟩ := h4 _ _ hd' h3'
  exact ⟨_, q, P, W 0, _, q', P', h1, h2, h3', k1, k2, k3, by rw [k4]⟩

/-- Hierarchical: the tree of C03, values 1, 1, 2, 3. -/
example (p : ℝ) (hp0 : 0 ≤ p) (hp1 : p ≤ 1) : ∃ c q P W c' q' P',
    HValuesN1.ofVec (table1 4 (fun i => ([1, 1, 2, 3] : List ℝ).getD i 0)) [4, 4, 6, 6, 5, -1, 5] = .ok c ∧
    (HQualities.ofValues c.toHValues).computeQualities = .ok ⟨some c.toHValues, some q, c.md⟩ ∧
    hBestPartition (F := ℝ) q c.md p = .ok P ∧
    NodeMeans 4 [4, 4, 6, 6, 5, -1, 5] 1 (fun _ i => ([1, 1, 2, 3] : List ℝ).getD i 0) (fun _ => W) (P.parts.map (fun x => x.h)) ∧
    HValuesN1.ofVec (table1 4 W) [4, 4, 6, 6, 5, -1, 5] = .ok c' ∧
    (HQualities.ofValues c'.toHValues).computeQualities = .ok ⟨some c'.toHValues, some q', c'.md⟩ ∧
    hBestPartition (F := ℝ) q' c'.md p = .ok P' ∧
    P'.parts.map (fun x => x.h) = P.parts.map (fun x => x.h) ∧ P'.quality.loss = 0 := by
  let f : Nat → ℝ := fun i => ([1, 1, 2, 3] : List ℝ).getD i 0
  obtain ⟨md, hm, _, hr⟩ := C03.right 4 [4, 4, 6, 6, 5, -1, 5] 5 C03.sevenTree C03.sevenNearest
  have hc : ∀ g : Nat → ℝ, ∃ c : HValuesN1 ℝ, HValuesN1.ofVec (table1 4 g) [4, 4, 6, 6, 5, -1, 5] = .ok c ∧ c.md = md := by
    intro g
    unfold HValuesN1.ofVec
    rw [SIZE1_table1, hm]
    exact ⟨_, rfl, rfl⟩
  obtain ⟨c, hc1, hc2⟩ := hc f
  obtain ⟨_, _, hh⟩ := HValuesN1.ofVec_holds _ hc1
  obtain ⟨q, P, h1, h2, ⟨W, h3⟩, h4⟩ := hierarchical (F := ℝ) (exactLaws ℝ) 4 _ c.toHValues (by subst hc2; exact hr) (by decide) 1 _
    hh.data (by
      intro k i _ hi
      match i, hi with
      | 0, _ => simp [f]
      | 1, _ => simp [f]
      | 2, _ => simp [f]
      | 3, _ => simp [f]) p hp0 hp1
  have h3' : NodeMeans 4 [4, 4, 6, 6, 5, -1, 5] 1 (fun _ => f) (fun _ => W 0) (P.parts.map (fun x => x.h)) := by
    intro h hh k hk l hl hu
    obtain rfl : k = 0 := by omega
    exact h3 h hh 0 hk l hl hu
  obtain ⟨c', hc1', hc2'⟩ := hc (W 0)
  obtain ⟨_, _, hh'⟩ := HValuesN1.ofVec_holds _ hc1'
  obtain ⟨q', P', k1, k2, k3, k4⟩ := h4 c'.toHValues _ (by show c'.md = c.md; rw [hc2, hc2']) hh'.data h3'
  exact ⟨c, q, P, W 0, c', q', P', hc1, h1, h2, h3', hc1', k1, k2, k3, by rw [k4]⟩

end Lp.C96
