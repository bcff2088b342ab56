import Verif.Props.C58
import Verif.Props.C16
import Verif.Props.C19
import Verif.Props.C21
import Verif.Proofs.ResolutionH

/-!
# C83 — a clear winner survives rounding

C58 bounds how much better, in truth, another partition may be than the one computed with rounding.  Here this is turned round: whatever
a partition beats clearly (`Beats`) is not returned.  So if one partition beats all others clearly, the rounded arithmetic returns exactly
that one, which is the one exact arithmetic returns.
-/

namespace Lp.C83
open Spec C58
open scoped BigOperators
variable {F K : Type} [LDLog K] [FloatP F K] {val : K → ℝ} {u w : ℝ}

/-- In truth `W` is worth more than `L` (`a*gain - b*loss`), by more than the fraction `c` of the sizes of the terms of both. -/
def Beats {A ι : Type} (c a b : ℝ) (m : Nat) (V : Nat → ι → ℝ) (pos : A → Finset ι) (W L : List A) : Prop :=
  valueOf a b (fun x => trueQuality m V (pos x)) L +
    c * ((L.map (fun x => termScale a b m V (pos x))).sum + (W.map (fun x => termScale a b m V (pos x))).sum) <
  valueOf a b (fun x => trueQuality m V (pos x)) W

theorem beats_aux {A ι : Type} {c a b : ℝ} {m : Nat} {V : Nat → ι → ℝ} {pos : A → Finset ι} {L W : List A}
    (h : NearBest c a b m V pos L W) : ¬ Beats c a b m V pos W L := by
  unfold NearBest at h
  unfold Beats
  linarith

/-- Ordered data.  If the tiling `W` clearly beats every tiling that is not acceptable, an acceptable one is returned. -/
theorem ordered (laws : LogLaws val u w) (hw : w ≤ 1 / 2) (v : OValues K) (m n : Nat) (V : Nat → Nat → K)
    (hv : OData v m n V) (hn : n ≤ 65535) (hs : (1 + u) ^ n ≤ 3 / 2) (hpos : ∀ k i, k < m → i < n → 0 ≤ val (V k i)) :
    ∃ q : UTM (Quality K), (OQualities.ofValues v).computeQualities = .ok ⟨some v, some q⟩ ∧
      ∀ (p : F) (W : List (Nat × Nat)) (Acceptable : List (Nat × Nat) → Prop), Tiles 0 n W →
        (∀ L, Tiles 0 n L → ¬ Acceptable L →
          Beats ((1 + w) ^ 3 * (1 + u) ^ (4 * n + m + 2) - 1) (val (FloatP.toK p)) (val (FloatP.toK (FloatP.oneSub p))) m
            (numbers val V) (fun I => Finset.Icc I.1 I.2) W L) →
        ∃ (P : OPartition F K) (L : List (Nat × Nat)), oBestPartition q p = .ok P ∧ Acceptable L ∧ Tiles 0 n L ∧
          P.parts.map (fun x => (x.start, x.end)) = L.map (fun I => ((I.1 : Int), (I.2 : Int))) := by
  obtain ⟨q, f, e, _, hp⟩ := C58.ordered (F := F) laws hw v m n V hv hn hs hpos
  refine ⟨q, e, fun p W A hW hA => ?_⟩
  obtain ⟨P, L, g1, g2, g3, g4⟩ := hp p
  exact ⟨P, L, g1, by_contra fun hL => beats_aux (g4 W hW) (hA L g2 hL), g2, g3⟩

/-- Hierarchies. -/
theorem hierarchical (laws : LogLaws val u w) (hw : w ≤ 1 / 2) (leaves : Nat) (parents : List Int) (v : HValues K)
    (hmd : RightMeta leaves parents v.md) (hlt : leaves < parents.length) (hb : leaves < 2147483648) (m : Nat) (V : Nat → Nat → K)
    (hv : HData v m leaves V) (hs : (1 + u) ^ leaves ≤ 3 / 2) (hpos : ∀ k i, k < m → i < leaves → 0 ≤ val (V k i)) :
    ∃ q : List (Quality K), (HQualities.ofValues v).computeQualities = .ok ⟨some v, some q, v.md⟩ ∧
      ∀ (p : F) (W : List Nat) (Acceptable : List Nat → Prop), LeafCover leaves parents W →
        (∀ L, LeafCover leaves parents L → ¬ Acceptable L →
          Beats ((1 + w) ^ 3 * (1 + u) ^ (4 * leaves + m + 2) - 1) (val (FloatP.toK p)) (val (FloatP.toK (FloatP.oneSub p))) m
            (numbers val V) (leavesUnder leaves parents) W L) →
        ∃ P : HPartition F K, hBestPartition q v.md p = .ok P ∧ Acceptable (P.parts.map (fun x => x.h)) := by
  obtain ⟨q, f, e, _, hp⟩ := C58.hierarchical (F := F) laws hw leaves parents v hmd hlt hb m V hv hs hpos
  refine ⟨q, e, fun p W A hW hA => ?_⟩
  obtain ⟨P, L, g1, g2, rfl, g4⟩ := hp p
  exact ⟨P, g1, by_contra fun hL => beats_aux (g4 W hW) (hA _ g2 hL)⟩

/-- Hierarchy × time: `W` has to be coarse-first (see C21), and only has to beat coarse-first partitions. -/
theorem spatiotemporal (laws : LogLaws val u w) (hw : w ≤ 1 / 2) (leaves : Nat) (parents : List Int) (v : DValues K)
    (hmd : RightMeta leaves parents v.md) (hlt : leaves < parents.length) (m n : Nat) (h0 : 0 < n) (hn : n ≤ 65535)
    (hb : leaves * n < 2147483648) (V : Nat → Nat × Nat → K) (hv : DData v m leaves n V) (hs : (1 + u) ^ (leaves * n) ≤ 3 / 2)
    (hpos : ∀ k i t, k < m → i < leaves → t < n → 0 ≤ val (V k (i, t))) :
    ∃ q : List (UTM (Quality K)), (DQualities.ofValues v).computeQualities = .ok ⟨some v, some q, v.md⟩ ∧
      ∀ (p : F) (W : List Rect) (Acceptable : List Rect → Prop), CellCover leaves parents n W → CoarseFirst parents W →
        (∀ L, CellCover leaves parents n L → CoarseFirst parents L → ¬ Acceptable L →
          Beats ((1 + w) ^ 3 * (1 + u) ^ (3 * (leaves * n) + m + 1 + leaves + n) - 1) (val (FloatP.toK p))
            (val (FloatP.toK (FloatP.oneSub p))) m (numbers val V)
            (fun r : Rect => leavesUnder leaves parents r.node ×ˢ Finset.Icc r.first r.last) W L) →
        ∃ P : DPartition F K, dBestPartition q v.md p = .ok P ∧
          Acceptable (P.parts.map (fun x => (⟨x.h, x.start, x.end⟩ : Rect))) := by
  obtain ⟨q, f, e, _, hp⟩ := C58.spatiotemporal (F := F) laws hw leaves parents v hmd hlt m n h0 hn hb V hv hs hpos
  refine ⟨q, e, fun p W A hW hc hA => ?_⟩
  obtain ⟨P, L, g1, g2, g3, rfl, g4⟩ := hp p
  exact ⟨P, g1, by_contra fun hL => beats_aux (g4 W hW hc) (hA _ g2 g3 hL)⟩

/-! ## After `normalize()` -/

/-- Ordered data: `R` is the computed quality of the whole, which the weights are divided by. -/
theorem orderedNormalized (laws : LogLaws val u w) (hw : w ≤ 1 / 2) (v : OValues K) (m n : Nat) (V : Nat → Nat → K)
    (hv : OData v m n V) (h0 : 0 < n) (hn : n ≤ 65535) (hs : (1 + u) ^ n ≤ 3 / 2) (hpos : ∀ k i, k < m → i < n → 0 ≤ val (V k i)) :
    ∃ (R : Quality K) (q' : UTM (Quality K)),
      ((OQualities.ofValues v).computeQualities >>= OQualities.normalize) = .ok ⟨some v, some q'⟩ ∧
      Accurate val u w m V (Finset.Icc 0 (n - 1)) R ∧
      (val R.gain ≠ 0 → val R.loss ≠ 0 →
        ∀ (p : F) (W : List (Nat × Nat)) (Acceptable : List (Nat × Nat) → Prop), Tiles 0 n W →
          (∀ L, Tiles 0 n L → ¬ Acceptable L →
            Beats ((1 + w) ^ 3 * (1 + u) ^ (4 * n + m + 3) - 1) (val (FloatP.toK p) / val R.gain)
              (val (FloatP.toK (FloatP.oneSub p)) / val R.loss) m (numbers val V) (fun I => Finset.Icc I.1 I.2) W L) →
          ∃ (P : OPartition F K) (L : List (Nat × Nat)), oBestPartition q' p = .ok P ∧ Acceptable L ∧ Tiles 0 n L ∧
            P.parts.map (fun x => (x.start, x.end)) = L.map (fun I => ((I.1 : Int), (I.2 : Int)))) := by
  obtain ⟨R, q, e, hR, hp⟩ := C58.orderedNormalized (F := F) laws hw v m n V hv h0 hn hs hpos
  refine ⟨R, q, e, hR, fun r1 r2 p W A hW hA => ?_⟩
  obtain ⟨P, L, g1, g2, g3, g4⟩ := hp r1 r2 p
  exact ⟨P, L, g1, by_contra fun hL => beats_aux (g4 W hW) (hA L g2 hL), g2, g3⟩

/-- Hierarchies whose root has the highest number (see C12). -/
theorem hierarchicalNormalized (laws : LogLaws val u w) (hw : w ≤ 1 / 2) (leaves : Nat) (parents : List Int) (v : HValues K)
    (hmd : RightMeta leaves parents v.md) (hlt : leaves < parents.length) (hroot : v.md.root = parents.length - 1)
    (hb : leaves < 2147483648) (m : Nat) (V : Nat → Nat → K)
    (hv : HData v m leaves V) (hs : (1 + u) ^ leaves ≤ 3 / 2) (hpos : ∀ k i, k < m → i < leaves → 0 ≤ val (V k i)) :
    ∃ (R : Quality K) (q' : List (Quality K)),
      ((HQualities.ofValues v).computeQualities >>= HQualities.normalize) = .ok ⟨some v, some q', v.md⟩ ∧
      Accurate val u w m V (Finset.range leaves) R ∧
      (val R.gain ≠ 0 → val R.loss ≠ 0 →
        ∀ (p : F) (W : List Nat) (Acceptable : List Nat → Prop), LeafCover leaves parents W →
          (∀ L, LeafCover leaves parents L → ¬ Acceptable L →
            Beats ((1 + w) ^ 3 * (1 + u) ^ (4 * leaves + m + 3) - 1) (val (FloatP.toK p) / val R.gain)
              (val (FloatP.toK (FloatP.oneSub p)) / val R.loss) m (numbers val V) (leavesUnder leaves parents) W L) →
          ∃ P : HPartition F K, hBestPartition q' v.md p = .ok P ∧ Acceptable (P.parts.map (fun x => x.h))) := by
  obtain ⟨R, q, e, hR, hp⟩ := C58.hierarchicalNormalized (F := F) laws hw leaves parents v hmd hlt hroot hb m V hv hs hpos
  refine ⟨R, q, e, hR, fun r1 r2 p W A hW hA => ?_⟩
  obtain ⟨P, L, g1, g2, rfl, g4⟩ := hp r1 r2 p
  exact ⟨P, g1, by_contra fun hL => beats_aux (g4 W hW) (hA _ g2 hL)⟩

/-- Hierarchy × time, root with the highest number. -/
theorem spatiotemporalNormalized (laws : LogLaws val u w) (hw : w ≤ 1 / 2) (leaves : Nat) (parents : List Int) (v : DValues K)
    (hmd : RightMeta leaves parents v.md) (hlt : leaves < parents.length) (hroot : v.md.root = parents.length - 1) (m n : Nat)
    (h0 : 0 < n) (hn : n ≤ 65535)
    (hb : leaves * n < 2147483648) (V : Nat → Nat × Nat → K) (hv : DData v m leaves n V) (hs : (1 + u) ^ (leaves * n) ≤ 3 / 2)
    (hpos : ∀ k i t, k < m → i < leaves → t < n → 0 ≤ val (V k (i, t))) :
    ∃ (R : Quality K) (q' : List (UTM (Quality K))),
      ((DQualities.ofValues v).computeQualities >>= DQualities.normalize) = .ok ⟨some v, some q', v.md⟩ ∧
      Accurate val u w m V (Finset.range leaves ×ˢ Finset.Icc 0 (n - 1)) R ∧
      (val R.gain ≠ 0 → val R.loss ≠ 0 →
        ∀ (p : F) (W : List Rect) (Acceptable : List Rect → Prop), CellCover leaves parents n W → CoarseFirst parents W →
          (∀ L, CellCover leaves parents n L → CoarseFirst parents L → ¬ Acceptable L →
            Beats ((1 + w) ^ 3 * (1 + u) ^ (3 * (leaves * n) + m + 2 + leaves + n) - 1) (val (FloatP.toK p) / val R.gain)
              (val (FloatP.toK (FloatP.oneSub p)) / val R.loss) m (numbers val V)
              (fun r : Rect => leavesUnder leaves parents r.node ×ˢ Finset.Icc r.first r.last) W L) →
          ∃ P : DPartition F K, dBestPartition q' v.md p = .ok P ∧
            Acceptable (P.parts.map (fun x => (⟨x.h, x.start, x.end⟩ : Rect)))) := by
  obtain ⟨R, q, e, hR, hp⟩ := C58.spatiotemporalNormalized (F := F) laws hw leaves parents v hmd hlt hroot m n h0 hn hb V hv hs hpos
  refine ⟨R, q, e, hR, fun r1 r2 p W A hW hc hA => ?_⟩
  obtain ⟨P, L, g1, g2, g3, rfl, g4⟩ := hp r1 r2 p
  exact ⟨P, g1, by_contra fun hL => beats_aux (g4 W hW hc) (hA _ g2 g3 hL)⟩

/-! ## Compared with exact arithmetic

`v'` holds exactly the numbers that the values of `v` stand for, and is analysed with exact arithmetic.  The parameters `p` (rounded)
and `p'` (exact) would be the same number; the theorem does not need this, `W` being asked to win with the rounded weights. -/

variable {F' : Type} [FloatP F' ℝ]

/-- Ordered data: if the exact best partition clearly beats every other one, the rounded arithmetic finds the same partition. -/
theorem orderedExact (laws : LogLaws val u w) (hw : w ≤ 1 / 2) (v : OValues K) (v' : OValues ℝ) (m n : Nat) (V : Nat → Nat → K)
    (hv : OData v m n V) (hv' : OData v' m n (numbers val V)) (hn : n ≤ 65535) (hs : (1 + u) ^ n ≤ 3 / 2)
    (hpos : ∀ k i, k < m → i < n → 0 ≤ val (V k i)) :
    ∃ (q : UTM (Quality K)) (q' : UTM (Quality ℝ)), (OQualities.ofValues v).computeQualities = .ok ⟨some v, some q⟩ ∧
      (OQualities.ofValues v').computeQualities = .ok ⟨some v', some q'⟩ ∧
      ∀ (p : F) (p' : F'),
        ∃ (P : OPartition F K) (P' : OPartition F' ℝ) (W : List (Nat × Nat)), oBestPartition q p = .ok P ∧
          oBestPartition q' p' = .ok P' ∧ Tiles 0 n W ∧
          P'.parts.map (fun x => (x.start, x.end)) = W.map (fun I => ((I.1 : Int), (I.2 : Int))) ∧
          ((∀ L, Tiles 0 n L → L ≠ W →
            Beats ((1 + w) ^ 3 * (1 + u) ^ (4 * n + m + 2) - 1) (val (FloatP.toK p)) (val (FloatP.toK (FloatP.oneSub p))) m
              (numbers val V) (fun I => Finset.Icc I.1 I.2) W L) →
            P.parts.map (fun x => (x.start, x.end)) = P'.parts.map (fun x => (x.start, x.end))) := by
  obtain ⟨q, f, e, _, hp⟩ := C58.ordered (F := F) laws hw v m n V hv hn hs hpos
  obtain ⟨q', e', hq'⟩ := oq_object hv' hn (fun k i hk hi => hpos k i hk hi)
  refine ⟨q, q', e, e', fun p p' => ?_⟩
  obtain ⟨P', W, k1, k2, k3, _⟩ := C16.optimal q' n _ hq' p'
  obtain ⟨P, L, g1, g2, g3, g4⟩ := hp p
  have k3' : P'.parts.map (fun x => (x.start, x.end)) = W.map (fun I => ((I.1 : Int), (I.2 : Int))) := by
    rw [k3, List.map_map]; rfl
  refine ⟨P, P', W, g1, k1, k2, k3', fun h => ?_⟩
  have : L = W := by_contra fun hL => beats_aux (g4 W k2) (h L g2 hL)
  rw [g3, k3', this]

/-- Hierarchies: partitions are the same if their parts hold the same leaves. -/
theorem hierarchicalExact (laws : LogLaws val u w) (hw : w ≤ 1 / 2) (leaves : Nat) (parents : List Int) (v : HValues K) (v' : HValues ℝ)
    (hmd : RightMeta leaves parents v.md) (hmd' : RightMeta leaves parents v'.md) (hlt : leaves < parents.length)
    (hb : leaves < 2147483648) (m : Nat) (V : Nat → Nat → K) (hv : HData v m leaves V) (hv' : HData v' m leaves (numbers val V))
    (hs : (1 + u) ^ leaves ≤ 3 / 2) (hpos : ∀ k i, k < m → i < leaves → 0 ≤ val (V k i)) :
    ∃ (q : List (Quality K)) (q' : List (Quality ℝ)), (HQualities.ofValues v).computeQualities = .ok ⟨some v, some q, v.md⟩ ∧
      (HQualities.ofValues v').computeQualities = .ok ⟨some v', some q', v'.md⟩ ∧
      ∀ (p : F) (p' : F'), ∃ (P : HPartition F K) (P' : HPartition F' ℝ), hBestPartition q v.md p = .ok P ∧
        hBestPartition q' v'.md p' = .ok P' ∧ LeafCover leaves parents (P'.parts.map (fun x => x.h)) ∧
        ((∀ L, LeafCover leaves parents L →
            ¬ (L.map (leavesUnder leaves parents)).Perm (P'.parts.map (fun x => leavesUnder leaves parents x.h)) →
            Beats ((1 + w) ^ 3 * (1 + u) ^ (4 * leaves + m + 2) - 1) (val (FloatP.toK p)) (val (FloatP.toK (FloatP.oneSub p))) m
              (numbers val V) (leavesUnder leaves parents) (P'.parts.map (fun x => x.h)) L) →
          (P.parts.map (fun x => leavesUnder leaves parents x.h)).Perm (P'.parts.map (fun x => leavesUnder leaves parents x.h))) := by
  obtain ⟨q, e, hp⟩ := hierarchical (F := F) laws hw leaves parents v hmd hlt hb m V hv hs hpos
  obtain ⟨q', e', hq'⟩ := hq_object hmd' hlt hv' (fun k i hk hi => hpos k i hk hi)
  refine ⟨q, q', e, e', fun p p' => ?_⟩
  obtain ⟨P', W, k1, k2, k3, _⟩ := C19.optimal leaves parents v'.md hmd' hlt q' _ hq' p'
  have hW : P'.parts.map (fun x => x.h) = W := by
    have := congrArg (List.map Prod.fst) k3
    simpa [List.map_map, Function.comp_def] using this
  obtain ⟨P, g1, _⟩ := hp p W (fun _ => True) k2 (fun _ _ h => absurd trivial h)
  refine ⟨P, P', g1, k1, ?_⟩
  rw [hW]
  refine ⟨k2, fun h => ?_⟩
  obtain ⟨P2, g2, g3⟩ := hp p W
    (fun L => (L.map (leavesUnder leaves parents)).Perm (P'.parts.map (fun x => leavesUnder leaves parents x.h))) k2 h
  rw [g1] at g2
  obtain rfl : P = P2 := Except.ok.inj g2
  rw [List.map_map] at g3
  exact g3

/-- Hierarchy × time. -/
theorem spatiotemporalExact (laws : LogLaws val u w) (hw : w ≤ 1 / 2) (leaves : Nat) (parents : List Int) (v : DValues K)
    (v' : DValues ℝ) (hmd : RightMeta leaves parents v.md) (hmd' : RightMeta leaves parents v'.md) (hlt : leaves < parents.length)
    (m n : Nat) (h0 : 0 < n) (hn : n ≤ 65535) (hb : leaves * n < 2147483648) (V : Nat → Nat × Nat → K) (hv : DData v m leaves n V)
    (hv' : DData v' m leaves n (numbers val V)) (hs : (1 + u) ^ (leaves * n) ≤ 3 / 2)
    (hpos : ∀ k i t, k < m → i < leaves → t < n → 0 ≤ val (V k (i, t))) :
    ∃ (q : List (UTM (Quality K))) (q' : List (UTM (Quality ℝ))),
      (DQualities.ofValues v).computeQualities = .ok ⟨some v, some q, v.md⟩ ∧
      (DQualities.ofValues v').computeQualities = .ok ⟨some v', some q', v'.md⟩ ∧
      ∀ (p : F) (p' : F'), ∃ (P : DPartition F K) (P' : DPartition F' ℝ), dBestPartition q v.md p = .ok P ∧
        dBestPartition q' v'.md p' = .ok P' ∧
        let cells := fun r : Rect => leavesUnder leaves parents r.node ×ˢ Finset.Icc r.first r.last
        let parts := P.parts.map (fun x => (⟨x.h, x.start, x.end⟩ : Rect))
        let parts' := P'.parts.map (fun x => (⟨x.h, x.start, x.end⟩ : Rect))
        CellCover leaves parents n parts' ∧ CoarseFirst parents parts' ∧
        ((∀ L, CellCover leaves parents n L → CoarseFirst parents L → ¬ (L.map cells).Perm (parts'.map cells) →
            Beats ((1 + w) ^ 3 * (1 + u) ^ (3 * (leaves * n) + m + 1 + leaves + n) - 1) (val (FloatP.toK p))
              (val (FloatP.toK (FloatP.oneSub p))) m (numbers val V) cells parts' L) →
          (parts.map cells).Perm (parts'.map cells)) := by
  obtain ⟨q, e, hp⟩ := spatiotemporal (F := F) laws hw leaves parents v hmd hlt m n h0 hn hb V hv hs hpos
  obtain ⟨q', e', hq'⟩ := dq_object hmd' hlt hn hb hv' (fun k i t hk hi ht => hpos k i t hk hi ht)
  refine ⟨q, q', e, e', fun p p' => ?_⟩
  obtain ⟨P', W, k1, k2, kc, k3, _⟩ := C21.optimal leaves parents v'.md hmd' n h0 hn q' _ hq' p'
  have hW : P'.parts.map (fun x => (⟨x.h, x.start, x.end⟩ : Rect)) = W := by
    have := congrArg (List.map Prod.fst) k3
    simpa [List.map_map, Function.comp_def] using this
  obtain ⟨P, g1, _⟩ := hp p W (fun _ => True) k2 kc (fun _ _ _ h => absurd trivial h)
  refine ⟨P, P', g1, k1, ?_⟩
  rw [hW]
  refine ⟨k2, kc, fun h => ?_⟩
  obtain ⟨P2, g2, g3⟩ := hp p W
    (fun L => (L.map (fun r : Rect => leavesUnder leaves parents r.node ×ˢ Finset.Icc r.first r.last)).Perm
      (W.map (fun r : Rect => leavesUnder leaves parents r.node ×ˢ Finset.Icc r.first r.last))) k2 kc h
  rw [g1] at g2
  obtain rfl : P = P2 := Except.ok.inj g2
  exact g3

/-! ## The theorems applied: the values 1, 1 in x87 arithmetic, `p = 1` -/

/-- The values 1, 1. -/
noncomputable def exOne : Nat → X87 := fun _ => 1

theorem exOne_aux (i : Nat) : (exOne i).val = 1 := rfl

/-- The numbers of the example: sizes of the terms of a single position and of both positions. -/
theorem scale_aux : gainScale ({0} : Finset Nat) (fun _ => 1) ≤ 4 ∧ gainScale ({1} : Finset Nat) (fun _ => 1) ≤ 4 ∧
    gainScale ({0, 1} : Finset Nat) (fun _ => 1) ≤ 10 ∧ gainOver ({0, 1} : Finset Nat) (fun _ => 1) = 2 := by
  have h2 : 1 / 2 ≤ Real.log 2 := by
    have := Real.one_sub_inv_le_log_of_pos (show (0 : ℝ) < 2 by norm_num)
    linarith
  have hL := log2_pos
  have i1 : 1 / Real.log 2 ≤ 2 := by rw [div_le_iff₀ hL]; linarith
  have i2 : 2 * (1 + Real.log 2) / Real.log 2 ≤ 6 := by rw [div_le_iff₀ hL]; linarith
  refine ⟨?_, ?_, ?_, ?_⟩
  · norm_num [gainScale, scale] at i1 ⊢
    linarith
  · norm_num [gainScale, scale] at i1 ⊢
    linarith
  · norm_num [gainScale, scale, abs_of_pos hL] at i1 i2 ⊢
    linarith
  · norm_num [gainOver, xlog2]

/-- With these values both positions in one part clearly beat at most two parts of one position. -/
theorem beatsSingles_aux {A : Type} {c : ℝ} (hc : c ≤ 1 / 2 ^ 42) {pos : A → Finset Nat} {y : A} (hy : pos y = {0, 1}) {L : List A}
    (hL : ∀ x ∈ L, pos x = {0} ∨ pos x = {1}) (hl : L.length ≤ 2) : Beats c 1 0 1 (fun _ _ => 1) pos [y] L := by
  obtain ⟨s0, s1, s2, g⟩ := scale_aux
  have t : ∀ x ∈ L, trueQuality 1 (fun _ _ => (1 : ℝ)) (pos x) = ⟨0, 0⟩ := by
    intro x hx
    rcases hL x hx with h | h <;> rw [h] <;> exact single_true _
  have v : ∀ M : List A, (∀ x ∈ M, trueQuality 1 (fun _ _ => (1 : ℝ)) (pos x) = ⟨0, 0⟩) →
      gainOf (fun x => trueQuality 1 (fun _ _ => (1 : ℝ)) (pos x)) M = 0 := by
    intro M
    induction M with
    | nil => intro _; rfl
    | cons x M ih =>
      intro h
      rw [gainOf_cons, h x (by simp), ih (fun z hz => h z (by simp [hz]))]
      simp
  have hsum : (L.map (fun x => termScale 1 0 1 (fun _ _ => (1 : ℝ)) (pos x))).sum ≤ 8 := by
    have h1 : (L.map (fun x => termScale 1 0 1 (fun _ _ => (1 : ℝ)) (pos x))).sum ≤ (L.map (fun _ => (4 : ℝ))).sum := by
      refine List.sum_le_sum fun x hx => ?_
      have : termScale 1 0 1 (fun _ _ => (1 : ℝ)) (pos x) = gainScale (pos x) (fun _ => 1) := by simp [termScale]
      rw [this]
      rcases hL x hx with h | h <;> rw [h] <;> assumption
    refine le_trans h1 ?_
    simp only [List.map_const', List.sum_replicate, nsmul_eq_mul]
    have : (L.length : ℝ) ≤ 2 := by exact_mod_cast hl
    linarith
  have hn : ∀ s : Finset Nat, 0 ≤ gainScale s (fun _ => (1 : ℝ)) := by
    intro s
    have hL := log2_pos
    unfold gainScale scale
    refine add_nonneg (div_nonneg (mul_nonneg (by positivity) (by positivity)) hL.le)
      (Finset.sum_nonneg fun _ _ => div_nonneg (mul_nonneg (by positivity) (by positivity)) hL.le)
  have hsum0 : 0 ≤ (L.map (fun x => termScale 1 0 1 (fun _ _ => (1 : ℝ)) (pos x))).sum := by
    refine List.sum_nonneg fun z hz => ?_
    obtain ⟨x, _, rfl⟩ := List.mem_map.mp hz
    simpa [termScale] using hn (pos x)
  unfold Beats valueOf
  rw [v L t]
  have e1 : termScale 1 0 1 (fun _ _ => (1 : ℝ)) (pos y) = gainScale {0, 1} (fun _ => 1) := by simp [termScale, hy]
  have e2 : (trueQuality 1 (fun _ _ => (1 : ℝ)) (pos y)).gain = 2 := by
    rw [hy, ← g]; simp [trueQuality, gainSeries]
  have e3 := hn {0, 1}
  simp only [List.map_cons, List.map_nil, List.sum_cons, List.sum_nil, gainOf_cons, gainOf_nil, e1, e2]
  nlinarith

/-- Ordered: the single interval is returned. -/
example : ∃ (v : OValues X87) (q : UTM (Quality X87)) (P : OPartition X87 X87),
    v = (OValuesN1.ofVec [1, 1]).toOValues ∧ (OQualities.ofValues v).computeQualities = .ok ⟨some v, some q⟩ ∧
    oBestPartition q (1 : X87) = .ok P ∧ P.parts.map (fun x => (x.start, x.end)) = [(0, 1)] := by
  have h := longDouble _ x87.acc_nonneg x87_accuracy 2 1 (by decide) (by decide)
  obtain ⟨q, e, hp⟩ := ordered (F := X87) x87 (le_trans x87_accuracy (by norm_num)) _ 1 2 (fun _ => exOne)
    (OValuesN1.ofVec_holds (O := 2) exOne).data (by decide) h.2 (fun _ i _ _ => by rw [exOne_aux]; norm_num)
  obtain ⟨P, L, g1, g2, _, g3⟩ := hp 1 [(0, 1)] (fun L => L = [(0, 1)]) (.cons (by decide) (by decide) (.nil 2)) (by
    intro L hL hne
    have w1 : RoundedLog.val (FloatP.toK (1 : X87) : X87) = 1 := rfl
    have w0 : RoundedLog.val (FloatP.toK (FloatP.oneSub (1 : X87)) : X87) = 0 := by
      show (truncationIn ℝ 63).rnd (1 - 1) = 0
      rw [sub_self]; exact (truncationIn ℝ 63).zero
    rw [w1, w0]
    have hL' : L = [(0, 0), (1, 1)] := by
      cases hL with
      | @cons _ _ c L' h1 h2 h3 =>
        have : c = 0 ∨ c = 1 := by omega
        rcases this with rfl | rfl
        · cases h3 with
          | @cons _ _ d L'' k1 k2 k3 =>
            have : d = 1 := by omega
            subst this
            cases k3 with
            | nil => rfl
            | cons a b => omega
        · cases h3 with
          | nil => exact absurd rfl hne
          | cons a b => omega
    subst hL'
    exact beatsSingles_aux h.1 (by decide) (by decide) (by decide))
  subst g2
  exact ⟨_, q, P, rfl, e, g1, g3⟩

/-- Hierarchical: two leaves and a root; the root is returned. -/
example : ∃ (v : HValues X87) (q : List (Quality X87)) (P : HPartition X87 X87),
    (HQualities.ofValues v).computeQualities = .ok ⟨some v, some q, v.md⟩ ∧ v.md.root = 2 ∧
    hBestPartition q v.md (1 : X87) = .ok P ∧ 2 ∈ P.parts.map (fun x => x.h) := by
  have hd := longDouble _ x87.acc_nonneg x87_accuracy 2 1 (by decide) (by decide)
  obtain ⟨md, _, hrt, r⟩ := C03.balanced 2 [2, 2, -1] 2 C21.exTree_aux
    (.ofCheck (fun h => if h < 2 then 0 else 1) (by decide) (by decide) (by decide))
  have h : (⟨1, md, table1 2 exOne⟩ : HValuesN1 X87).Holds 2 md exOne := ⟨rfl, rfl, rfl⟩
  obtain ⟨l0, l1, l2⟩ := C21.exLeaves_aux
  have hW : LeafCover 2 [2, 2, -1] [2] := by
    refine ⟨by decide, fun l hl => ⟨0, ⟨2, rfl, ?_⟩, fun k hk => ?_⟩⟩
    · have : l ∈ leavesUnder 2 [2, 2, -1] 2 := by rw [l2]; simp; omega
      exact (mem_leavesUnder.mp this).2
    · obtain ⟨x, hx, _⟩ := hk
      obtain ⟨hk, _⟩ := List.getElem?_eq_some_iff.mp hx
      simpa using hk
  obtain ⟨q, e, hp⟩ := hierarchical (F := X87) x87 (le_trans x87_accuracy (by norm_num)) 2 [2, 2, -1] _ r
    (by decide) (by decide) 1 _ h.data hd.2 (fun _ i _ _ => by rw [exOne_aux]; norm_num)
  obtain ⟨P, g1, g2⟩ := hp 1 [2] (fun L => 2 ∈ L) hW (by
    intro L hL hne
    have w1 : RoundedLog.val (FloatP.toK (1 : X87) : X87) = 1 := rfl
    have w0 : RoundedLog.val (FloatP.toK (FloatP.oneSub (1 : X87)) : X87) = 0 := by
      show (truncationIn ℝ 63).rnd (1 - 1) = 0
      rw [sub_self]; exact (truncationIn ℝ 63).zero
    rw [w1, w0]
    have hx : ∀ x ∈ L, x = 0 ∨ x = 1 := by
      intro x hx
      have h3 : x < 3 := hL.1 x hx
      have : x ≠ 2 := fun h => hne (h ▸ hx)
      omega
    refine beatsSingles_aux hd.1 l2 (fun x hx' => ?_) ?_
    · rcases hx x hx' with rfl | rfl
      · exact .inl l0
      · exact .inr l1
    · have hs : L ⊆ [0, 1] := fun x hx' => by simpa using hx x hx'
      exact (List.subperm_of_subset (leafCover_nodup C21.exTree_aux hL) hs).length_le)
  exact ⟨_, q, P, e, hrt, g1, g2⟩

end Lp.C83
