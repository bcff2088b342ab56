import Verif.Props.C83
import Verif.Props.C84

/-!
# C93 — a clear winner is found on a machine with bounded exponents

C83 for the machines of C84: whatever the machine does to results out of range (infinities, denormal numbers, anything), if a partition beats
(`C83.Beats`) every partition that is not acceptable, then an acceptable partition is returned.  On a PC a margin of `2^-42` (`2^-34` for
hierarchy × time) of the sizes of the terms is enough.
-/

namespace Lp.C93
open Spec C58 C84
open C83 (Beats beats_aux)
open scoped BigOperators
variable {F K' K : Type} [LDLog K'] [LDLog K] [FloatP F K'] {fin : K' → Prop} {num : K' → K} {val : K → ℝ} {u w : ℝ} {b g E Q : Nat}

/-- Ordered data. -/
theorem ordered (ar : RangeArith fin num val u w b g E Q) {a c e m n : Nat} {D : ℝ} (ft : Fits u E Q a b g c e m n D)
    (v : OValues K') (V : Nat → Nat → K') (hv : OData v m n V) (hn : n ≤ 65535)
    (hd : ∀ k i, k < m → i < n → Datum fin num val a D (V k i)) :
    ∃ q : UTM (Quality K'), (OQualities.ofValues v).computeQualities = .ok ⟨some v, some q⟩ ∧
      ∀ p : F, Weights fin num val c p → ∀ (W : List (Nat × Nat)) (Acceptable : List (Nat × Nat) → Prop), Tiles 0 n W →
        (∀ L, Tiles 0 n L → ¬ Acceptable L →
          Beats ((1 + w) ^ 3 * (1 + u) ^ (4 * n + m + 2) - 1) (real num val (FloatP.toK p))
            (real num val (FloatP.toK (FloatP.oneSub p))) m (numbers (real num val) V) (fun I => Finset.Icc I.1 I.2) W L) →
        ∃ (P : OPartition F K') (L : List (Nat × Nat)), oBestPartition q p = .ok P ∧ Acceptable L ∧ Tiles 0 n L ∧
          P.parts.map (fun x => (x.start, x.end)) = L.map (fun I => ((I.1 : Int), (I.2 : Int))) ∧ Finite fin P.quality := by
  obtain ⟨q, f, e, _, hp⟩ := C84.ordered (F := F) ar ft v V hv hn hd
  refine ⟨q, e, fun p hw W A hW hA => ?_⟩
  obtain ⟨P, L, g1, g2, g3, g5, g4⟩ := hp p hw
  exact ⟨P, L, g1, by_contra fun hL => beats_aux (g4 W hW) (hA L g2 hL), g2, g3, g5⟩

/-- Hierarchies. -/
theorem hierarchical (ar : RangeArith fin num val u w b g E Q) {a c e m leaves : Nat} {D : ℝ} (ft : Fits u E Q a b g c e m leaves D)
    (parents : List Int) (v : HValues K') (hmd : RightMeta leaves parents v.md) (hlt : leaves < parents.length) (hb : leaves < 2147483648)
    (V : Nat → Nat → K') (hv : HData v m leaves V) (hd : ∀ k i, k < m → i < leaves → Datum fin num val a D (V k i)) :
    ∃ q : List (Quality K'), (HQualities.ofValues v).computeQualities = .ok ⟨some v, some q, v.md⟩ ∧
      ∀ p : F, Weights fin num val c p → ∀ (W : List Nat) (Acceptable : List Nat → Prop), LeafCover leaves parents W →
        (∀ L, LeafCover leaves parents L → ¬ Acceptable L →
          Beats ((1 + w) ^ 3 * (1 + u) ^ (4 * leaves + m + 2) - 1) (real num val (FloatP.toK p))
            (real num val (FloatP.toK (FloatP.oneSub p))) m (numbers (real num val) V) (leavesUnder leaves parents) W L) →
        ∃ P : HPartition F K', hBestPartition q v.md p = .ok P ∧ Acceptable (P.parts.map (fun x => x.h)) ∧
          LeafCover leaves parents (P.parts.map (fun x => x.h)) ∧ Finite fin P.quality := by
  obtain ⟨q, f, e, _, hp⟩ := C84.hierarchical (F := F) ar ft parents v hmd hlt hb V hv hd
  refine ⟨q, e, fun p hw W A hW hA => ?_⟩
  obtain ⟨P, L, g1, g2, rfl, g5, g4⟩ := hp p hw
  exact ⟨P, g1, by_contra fun hL => beats_aux (g4 W hW) (hA _ g2 hL), g2, g5⟩

/-- Hierarchy × time: `W` has to be coarse-first (see C21), and only has to beat coarse-first partitions. -/
theorem spatiotemporal (ar : RangeArith fin num val u w b g E Q) {a c e m leaves n : Nat} {D : ℝ} (ft : Fits u E Q a b g c e m (leaves * n) D)
    (parents : List Int) (v : DValues K') (hmd : RightMeta leaves parents v.md) (hlt : leaves < parents.length) (h0 : 0 < n) (hn : n ≤ 65535)
    (hb : leaves * n < 2147483648) (V : Nat → Nat × Nat → K') (hv : DData v m leaves n V)
    (hd : ∀ k i t, k < m → i < leaves → t < n → Datum fin num val a D (V k (i, t))) :
    ∃ q : List (UTM (Quality K')), (DQualities.ofValues v).computeQualities = .ok ⟨some v, some q, v.md⟩ ∧
      ∀ p : F, Weights fin num val c p → ∀ (W : List Rect) (Acceptable : List Rect → Prop), CellCover leaves parents n W →
        CoarseFirst parents W →
        (∀ L, CellCover leaves parents n L → CoarseFirst parents L → ¬ Acceptable L →
          Beats ((1 + w) ^ 3 * (1 + u) ^ (3 * (leaves * n) + m + 1 + leaves + n) - 1) (real num val (FloatP.toK p))
            (real num val (FloatP.toK (FloatP.oneSub p))) m (numbers (real num val) V)
            (fun r : Rect => leavesUnder leaves parents r.node ×ˢ Finset.Icc r.first r.last) W L) →
        ∃ P : DPartition F K', dBestPartition q v.md p = .ok P ∧
          Acceptable (P.parts.map (fun x => (⟨x.h, x.start, x.end⟩ : Rect))) ∧
          CellCover leaves parents n (P.parts.map (fun x => (⟨x.h, x.start, x.end⟩ : Rect))) ∧ Finite fin P.quality := by
  obtain ⟨q, f, e, _, hp⟩ := C84.spatiotemporal (F := F) ar ft parents v hmd hlt h0 hn hb V hv hd
  refine ⟨q, e, fun p hw W A hW hc hA => ?_⟩
  obtain ⟨P, L, g1, g2, g3, rfl, g5, g4⟩ := hp p hw
  exact ⟨P, g1, by_contra fun hL => beats_aux (g4 W hW hc) (hA _ g2 g3 hL), g2, g5⟩

/-! ## After `normalize()` -/

/-- Ordered data: `R` is the computed quality of the whole, which the weights are divided by. -/
theorem orderedNormalized (ar : RangeArith fin num val u w b g E Q) {a c e m n : Nat} {D : ℝ} (ft : FitsNormalized u E Q a b g c e m n D)
    (v : OValues K') (V : Nat → Nat → K') (hv : OData v m n V) (h0 : 0 < n) (hn : n ≤ 65535)
    (hd : ∀ k i, k < m → i < n → Datum fin num val a D (V k i)) :
    ∃ (R : Quality K') (q' : UTM (Quality K')),
      ((OQualities.ofValues v).computeQualities >>= OQualities.normalize) = .ok ⟨some v, some q'⟩ ∧
      Accurate (real num val) u w m V (Finset.Icc 0 (n - 1)) R ∧
      (real num val R.gain ≠ 0 → real num val R.loss ≠ 0 → ∀ p : F, Weights fin num val c p →
        ∀ (W : List (Nat × Nat)) (Acceptable : List (Nat × Nat) → Prop), Tiles 0 n W →
        (∀ L, Tiles 0 n L → ¬ Acceptable L →
          Beats ((1 + w) ^ 3 * (1 + u) ^ (4 * n + m + 3) - 1) (real num val (FloatP.toK p) / real num val R.gain)
            (real num val (FloatP.toK (FloatP.oneSub p)) / real num val R.loss) m (numbers (real num val) V)
            (fun I => Finset.Icc I.1 I.2) W L) →
        ∃ (P : OPartition F K') (L : List (Nat × Nat)), oBestPartition q' p = .ok P ∧ Acceptable L ∧ Tiles 0 n L ∧
          P.parts.map (fun x => (x.start, x.end)) = L.map (fun I => ((I.1 : Int), (I.2 : Int))) ∧ Finite fin P.quality) := by
  obtain ⟨R, q, e, _, hR, hp⟩ := C84.orderedNormalized (F := F) ar ft v V hv h0 hn hd
  refine ⟨R, q, e, hR, fun r1 r2 p hw W A hW hA => ?_⟩
  obtain ⟨P, L, g1, g2, g3, g5, g4⟩ := (hp r1 r2).2 p hw
  exact ⟨P, L, g1, by_contra fun hL => beats_aux (g4 W hW) (hA L g2 hL), g2, g3, g5⟩

/-- Hierarchies whose root has the highest number (see C12). -/
theorem hierarchicalNormalized (ar : RangeArith fin num val u w b g E Q) {a c e m leaves : Nat} {D : ℝ}
    (ft : FitsNormalized u E Q a b g c e m leaves D)
    (parents : List Int) (v : HValues K') (hmd : RightMeta leaves parents v.md) (hlt : leaves < parents.length)
    (hroot : v.md.root = parents.length - 1) (hb : leaves < 2147483648)
    (V : Nat → Nat → K') (hv : HData v m leaves V) (hd : ∀ k i, k < m → i < leaves → Datum fin num val a D (V k i)) :
    ∃ (R : Quality K') (q' : List (Quality K')),
      ((HQualities.ofValues v).computeQualities >>= HQualities.normalize) = .ok ⟨some v, some q', v.md⟩ ∧
      Accurate (real num val) u w m V (Finset.range leaves) R ∧
      (real num val R.gain ≠ 0 → real num val R.loss ≠ 0 → ∀ p : F, Weights fin num val c p →
        ∀ (W : List Nat) (Acceptable : List Nat → Prop), LeafCover leaves parents W →
        (∀ L, LeafCover leaves parents L → ¬ Acceptable L →
          Beats ((1 + w) ^ 3 * (1 + u) ^ (4 * leaves + m + 3) - 1) (real num val (FloatP.toK p) / real num val R.gain)
            (real num val (FloatP.toK (FloatP.oneSub p)) / real num val R.loss) m (numbers (real num val) V)
            (leavesUnder leaves parents) W L) →
        ∃ P : HPartition F K', hBestPartition q' v.md p = .ok P ∧ Acceptable (P.parts.map (fun x => x.h)) ∧
          LeafCover leaves parents (P.parts.map (fun x => x.h)) ∧ Finite fin P.quality) := by
  obtain ⟨R, q, e, _, hR, hp⟩ := C84.hierarchicalNormalized (F := F) ar ft parents v hmd hlt hroot hb V hv hd
  refine ⟨R, q, e, hR, fun r1 r2 p hw W A hW hA => ?_⟩
  obtain ⟨P, L, g1, g2, rfl, g5, g4⟩ := (hp r1 r2).2 p hw
  exact ⟨P, g1, by_contra fun hL => beats_aux (g4 W hW) (hA _ g2 hL), g2, g5⟩

/-- Hierarchy × time, root with the highest number. -/
theorem spatiotemporalNormalized (ar : RangeArith fin num val u w b g E Q) {a c e m leaves n : Nat} {D : ℝ}
    (ft : FitsNormalized u E Q a b g c e m (leaves * n) D)
    (parents : List Int) (v : DValues K') (hmd : RightMeta leaves parents v.md) (hlt : leaves < parents.length)
    (hroot : v.md.root = parents.length - 1) (h0 : 0 < n) (hn : n ≤ 65535)
    (hb : leaves * n < 2147483648) (V : Nat → Nat × Nat → K') (hv : DData v m leaves n V)
    (hd : ∀ k i t, k < m → i < leaves → t < n → Datum fin num val a D (V k (i, t))) :
    ∃ (R : Quality K') (q' : List (UTM (Quality K'))),
      ((DQualities.ofValues v).computeQualities >>= DQualities.normalize) = .ok ⟨some v, some q', v.md⟩ ∧
      Accurate (real num val) u w m V (Finset.range leaves ×ˢ Finset.Icc 0 (n - 1)) R ∧
      (real num val R.gain ≠ 0 → real num val R.loss ≠ 0 → ∀ p : F, Weights fin num val c p →
        ∀ (W : List Rect) (Acceptable : List Rect → Prop), CellCover leaves parents n W → CoarseFirst parents W →
        (∀ L, CellCover leaves parents n L → CoarseFirst parents L → ¬ Acceptable L →
          Beats ((1 + w) ^ 3 * (1 + u) ^ (3 * (leaves * n) + m + 2 + leaves + n) - 1) (real num val (FloatP.toK p) / real num val R.gain)
            (real num val (FloatP.toK (FloatP.oneSub p)) / real num val R.loss) m (numbers (real num val) V)
            (fun r : Rect => leavesUnder leaves parents r.node ×ˢ Finset.Icc r.first r.last) W L) →
        ∃ P : DPartition F K', dBestPartition q' v.md p = .ok P ∧
          Acceptable (P.parts.map (fun x => (⟨x.h, x.start, x.end⟩ : Rect))) ∧
          CellCover leaves parents n (P.parts.map (fun x => (⟨x.h, x.start, x.end⟩ : Rect))) ∧ Finite fin P.quality) := by
  obtain ⟨R, q, e, _, hR, hp⟩ := C84.spatiotemporalNormalized (F := F) ar ft parents v hmd hlt hroot h0 hn hb V hv hd
  refine ⟨R, q, e, hR, fun r1 r2 p hw W A hW hc hA => ?_⟩
  obtain ⟨P, L, g1, g2, g3, rfl, g5, g4⟩ := (hp r1 r2).2 p hw
  exact ⟨P, g1, by_contra fun hL => beats_aux (g4 W hW hc) (hA _ g2 g3 hL), g2, g5⟩

/-! ## On a PC -/

theorem margin_aux {A ι : Type} {c c' a b : ℝ} (hc : c ≤ c') {m : Nat} {V : Nat → ι → ℝ} {pos : A → Finset ι} {W L : List A}
    (hV : ∀ x ∈ L ++ W, ∀ k < m, ∀ i ∈ pos x, 0 ≤ V k i) (h : Beats c' a b m V pos W L) : Beats c a b m V pos W L := by
  have hn : ∀ x ∈ L ++ W, 0 ≤ termScale a b m V (pos x) := by
    intro x hx
    have g1 : ∀ k ∈ Finset.range m, 0 ≤ gainScale (pos x) (V k) := fun k hk => gainScale_nonneg (hV x hx k (Finset.mem_range.mp hk))
    have g2 : ∀ k ∈ Finset.range m, 0 ≤ lossScale (pos x) (V k) := fun k hk => by
      have := Finset.sum_nonneg (hV x hx k (Finset.mem_range.mp hk))
      have hL := log2_pos
      unfold lossScale
      exact add_nonneg (div_nonneg (mul_nonneg this (by positivity)) hL.le) (g1 k hk)
    unfold termScale
    exact add_nonneg (mul_nonneg (abs_nonneg _) (Finset.sum_nonneg g1)) (mul_nonneg (abs_nonneg _) (Finset.sum_nonneg g2))
  have s : ∀ M : List A, (∀ x ∈ M, x ∈ L ++ W) → 0 ≤ (M.map (fun x => termScale a b m V (pos x))).sum := by
    intro M hM
    refine List.sum_nonneg fun z hz => ?_
    obtain ⟨x, hx, rfl⟩ := List.mem_map.mp hz
    exact hn x (hM x hx)
  have s1 := s L fun x hx => List.mem_append_left _ hx
  have s2 := s W fun x hx => List.mem_append_right _ hx
  unfold Beats at h ⊢
  nlinarith

/-- A value of the data on a PC: a multiple of `2^-1022`, not negative, at most `2^990`. -/
abbrev PcDatum (lost : PcLong → Special PcLong) (x : Long lost) : Prop :=
  Datum Limited.fin Limited.num RoundedLog.val 1022 (2 ^ 990) x

/-- The number that a machine number of a PC is. -/
noncomputable abbrev pcReal (lost : PcLong → Special PcLong) : Long lost → ℝ := real (K' := Long lost) Limited.num RoundedLog.val

/-- Ordered data on a PC: every rounding of `float`, every parameter from 0 to 1, up to 65535 slices and series. -/
theorem orderedPc (lost : PcLong → Special PcLong) (R : Rounding) {m n : Nat} (hm : m ≤ 65535) (hn : n ≤ 65535)
    (v : OValues (Long lost)) (V : Nat → Nat → Long lost) (hv : OData v m n V)
    (hd : ∀ k i, k < m → i < n → PcDatum lost (V k i)) :
    ∃ q : UTM (Quality (Long lost)), (OQualities.ofValues v).computeQualities = .ok ⟨some v, some q⟩ ∧
      ∀ p : With (B32 R) (longOf lost), 0 ≤ Subtype.val (show B32 R from p) → Subtype.val (show B32 R from p) ≤ 1 →
        ∀ (W : List (Nat × Nat)) (Acceptable : List (Nat × Nat) → Prop), Tiles 0 n W →
        (∀ L, Tiles 0 n L → ¬ Acceptable L →
          Beats (1 / 2 ^ 42) (pcReal lost (FloatP.toK p)) (pcReal lost (FloatP.toK (FloatP.oneSub p))) m
            (numbers (pcReal lost) V) (fun I => Finset.Icc I.1 I.2) W L) →
        ∃ (P : OPartition (With (B32 R) (longOf lost)) (Long lost)) (L : List (Nat × Nat)), oBestPartition q p = .ok P ∧ Acceptable L ∧
          Tiles 0 n L ∧ P.parts.map (fun x => (x.start, x.end)) = L.map (fun I => ((I.1 : Int), (I.2 : Int))) ∧
          Finite Limited.fin P.quality := by
  have hc := (longDouble _ x87.acc_nonneg x87_accuracy n m hn hm).1
  obtain ⟨q, e, hp⟩ := ordered (F := With (B32 R) (longOf lost)) (long lost)
    (roomLong (m := m) (N := n) (by omega) (by omega)).toFits v V hv hn hd
  refine ⟨q, e, fun p p0 p1 W A hW hA => hp p (weights lost R p p0 p1) W A hW fun L hL hn => margin_aux hc ?_ (hA L hL hn)⟩
  intro I hI k hk i hi
  have hb : I.2 < n := by
    rcases List.mem_append.mp hI with h | h
    · exact (hL.bounds I h).2.2
    · exact (hW.bounds I h).2.2
  rw [Finset.mem_Icc] at hi
  exact (hd k i hk (by omega)).2.2.1

/-- Hierarchies on a PC. -/
theorem hierarchicalPc (lost : PcLong → Special PcLong) (R : Rounding) {m leaves : Nat} (hm : m ≤ 65535) (hn : leaves ≤ 65535)
    (parents : List Int) (v : HValues (Long lost)) (hmd : RightMeta leaves parents v.md) (hlt : leaves < parents.length)
    (V : Nat → Nat → Long lost) (hv : HData v m leaves V) (hd : ∀ k i, k < m → i < leaves → PcDatum lost (V k i)) :
    ∃ q : List (Quality (Long lost)), (HQualities.ofValues v).computeQualities = .ok ⟨some v, some q, v.md⟩ ∧
      ∀ p : With (B32 R) (longOf lost), 0 ≤ Subtype.val (show B32 R from p) → Subtype.val (show B32 R from p) ≤ 1 →
        ∀ (W : List Nat) (Acceptable : List Nat → Prop), LeafCover leaves parents W →
        (∀ L, LeafCover leaves parents L → ¬ Acceptable L →
          Beats (1 / 2 ^ 42) (pcReal lost (FloatP.toK p)) (pcReal lost (FloatP.toK (FloatP.oneSub p))) m
            (numbers (pcReal lost) V) (leavesUnder leaves parents) W L) →
        ∃ P : HPartition (With (B32 R) (longOf lost)) (Long lost), hBestPartition q v.md p = .ok P ∧
          Acceptable (P.parts.map (fun x => x.h)) ∧ LeafCover leaves parents (P.parts.map (fun x => x.h)) ∧
          Finite Limited.fin P.quality := by
  have hc := (longDouble _ x87.acc_nonneg x87_accuracy leaves m hn hm).1
  obtain ⟨q, e, hp⟩ := hierarchical (F := With (B32 R) (longOf lost)) (long lost)
    (roomLong (m := m) (N := leaves) (by omega) (by omega)).toFits parents v hmd hlt (by omega) V hv hd
  refine ⟨q, e, fun p p0 p1 W A hW hA => hp p (weights lost R p p0 p1) W A hW fun L hL hn => margin_aux hc ?_ (hA L hL hn)⟩
  intro I hI k hk i hi
  exact (hd k i hk (mem_leavesUnder.mp hi).1).2.2.1

/-- Hierarchy × time on a PC, up to `2^25` cells. -/
theorem spatiotemporalPc (lost : PcLong → Special PcLong) (R : Rounding) {m leaves n : Nat} (hm : m ≤ 65535) (hl : 0 < leaves)
    (h0 : 0 < n) (hn : n ≤ 65535) (hb : leaves * n ≤ 2 ^ 25)
    (parents : List Int) (v : DValues (Long lost)) (hmd : RightMeta leaves parents v.md) (hlt : leaves < parents.length)
    (V : Nat → Nat × Nat → Long lost) (hv : DData v m leaves n V)
    (hd : ∀ k i t, k < m → i < leaves → t < n → PcDatum lost (V k (i, t))) :
    ∃ q : List (UTM (Quality (Long lost))), (DQualities.ofValues v).computeQualities = .ok ⟨some v, some q, v.md⟩ ∧
      ∀ p : With (B32 R) (longOf lost), 0 ≤ Subtype.val (show B32 R from p) → Subtype.val (show B32 R from p) ≤ 1 →
        ∀ (W : List Rect) (Acceptable : List Rect → Prop), CellCover leaves parents n W → CoarseFirst parents W →
        (∀ L, CellCover leaves parents n L → CoarseFirst parents L → ¬ Acceptable L →
          Beats (1 / 2 ^ 34) (pcReal lost (FloatP.toK p)) (pcReal lost (FloatP.toK (FloatP.oneSub p))) m
            (numbers (pcReal lost) V) (fun r : Rect => leavesUnder leaves parents r.node ×ˢ Finset.Icc r.first r.last) W L) →
        ∃ P : DPartition (With (B32 R) (longOf lost)) (Long lost), dBestPartition q v.md p = .ok P ∧
          Acceptable (P.parts.map (fun x => (⟨x.h, x.start, x.end⟩ : Rect))) ∧
          CellCover leaves parents n (P.parts.map (fun x => (⟨x.h, x.start, x.end⟩ : Rect))) ∧ Finite Limited.fin P.quality := by
  have hc := (longDouble3 _ x87.acc_nonneg x87_accuracy leaves n m hl h0 hb hm).1
  have hb' : leaves * n ≤ 33554432 := by norm_num at hb; exact hb
  obtain ⟨q, e, hp⟩ := spatiotemporal (F := With (B32 R) (longOf lost)) (long lost)
    (roomLong (m := m) (N := leaves * n) (by omega) (by omega)).toFits parents v hmd hlt h0 hn (by omega) V hv hd
  refine ⟨q, e, fun p p0 p1 W A hW hcf hA => hp p (weights lost R p p0 p1) W A hW hcf fun L hL hf hn =>
    margin_aux hc ?_ (hA L hL hf hn)⟩
  rintro I hI k hk ⟨x, t⟩ hi
  have hlast : I.last < n := by
    rcases List.mem_append.mp hI with h | h
    · exact (hL.1 I h).2.2
    · exact (hW.1 I h).2.2
  rw [Finset.mem_product, Finset.mem_Icc] at hi
  exact (hd k x t hk (mem_leavesUnder.mp hi.1).1 (by omega)).2.2.1

/-! ## The theorems applied: the values 1, 1 on a PC, `p = 1` -/

/-- The values 1, 1. -/
noncomputable def exOne (lost : PcLong → Special PcLong) : Nat → Long lost := fun _ => (Special.num (C83.exOne 0) : Special PcLong)

theorem exOne_real_aux (lost : PcLong → Special PcLong) (i : Nat) : pcReal lost (exOne lost i) = 1 := rfl

theorem exOne_datum_aux (lost : PcLong → Special PcLong) (i : Nat) : PcDatum lost (exOne lost i) := by
  have e : RoundedLog.val (Limited.num (exOne lost i)) = 1 := rfl
  refine ⟨⟨_, rfl⟩, ?_, ?_, ?_⟩
  · rw [e]
    exact Grid.mono (a := 0) ⟨1, by norm_num⟩ (by omega)
  · rw [e]; norm_num
  · rw [e]; exact one_le_pow₀ (by norm_num)

/-- The parameter 1. -/
def exP (lost : PcLong → Special PcLong) (R : Rounding) : With (B32 R) (longOf lost) := (⟨1, isB32_one⟩ : B32 R)

theorem exP_aux (lost : PcLong → Special PcLong) (R : Rounding) :
    pcReal lost (FloatP.toK (exP lost R)) = 1 ∧ pcReal lost (FloatP.toK (FloatP.oneSub (exP lost R))) = 0 := by
  constructor
  · show (truncationIn ℝ 63).rnd ((1 : ℚ) : ℝ) = 1
    rw [Rat.cast_one]
    exact (truncationIn ℝ 63).one
  · show (truncationIn ℝ 63).rnd ((R.rnd (1 - 1) : ℚ) : ℝ) = 0
    rw [sub_self, R.fix 0 isB32_zero, Rat.cast_zero]
    exact (truncationIn ℝ 63).zero

theorem two_aux {L : List (Nat × Nat)} (h : Tiles 0 2 L) : L = [(0, 1)] ∨ L = [(0, 0), (1, 1)] := by
  cases h with
  | @cons a b c L h1 h2 h3 =>
    obtain rfl | rfl : c = 0 ∨ c = 1 := by omega
    · right
      cases h3 with
      | @cons a b c L h1 h2 h3 =>
        obtain rfl : c = 1 := by omega
        cases h3 with
        | nil => rfl
        | cons h1 h2 => omega
    · left
      cases h3 with
      | nil => rfl
      | cons h1 h2 => omega

/-- Ordered: the single interval is returned, whatever becomes of results out of range. -/
example (lost : PcLong → Special PcLong) (R : Rounding) : ∃ (v : OValues (Long lost)) (q : UTM (Quality (Long lost)))
    (P : OPartition (With (B32 R) (longOf lost)) (Long lost)), v = (OValuesN1.ofVec (table1 2 (exOne lost))).toOValues ∧
    (OQualities.ofValues v).computeQualities = .ok ⟨some v, some q⟩ ∧ oBestPartition q (exP lost R) = .ok P ∧
    P.parts.map (fun x => (x.start, x.end)) = [(0, 1)] := by
  obtain ⟨q, e, hp⟩ := orderedPc lost R (m := 1) (n := 2) (by decide) (by decide) _ (fun _ => exOne lost)
    (OValuesN1.ofVec_holds (O := 2) (exOne lost)).data (fun _ i _ _ => exOne_datum_aux lost i)
  obtain ⟨P, L, g1, g2, _, g3, _⟩ := hp (exP lost R) (by show (0 : ℚ) ≤ 1; norm_num) (by show (1 : ℚ) ≤ 1; norm_num) [(0, 1)]
    (fun L => L = [(0, 1)]) (.cons (by decide) (by decide) (.nil 2)) (by
    intro L hL hne
    rw [(exP_aux lost R).1, (exP_aux lost R).2]
    obtain rfl := (two_aux hL).resolve_left hne
    exact C83.beatsSingles_aux (le_refl _) (by decide) (by decide) (by decide))
  subst g2
  exact ⟨_, q, P, rfl, e, g1, g3⟩

/-- Hierarchical: two leaves and a root; the root is returned. -/
example (lost : PcLong → Special PcLong) (R : Rounding) : ∃ (v : HValues (Long lost)) (q : List (Quality (Long lost)))
    (P : HPartition (With (B32 R) (longOf lost)) (Long lost)),
    (HQualities.ofValues v).computeQualities = .ok ⟨some v, some q, v.md⟩ ∧ v.md.root = 2 ∧
    hBestPartition q v.md (exP lost R) = .ok P ∧ 2 ∈ P.parts.map (fun x => x.h) := by
  obtain ⟨md, _, hrt, r⟩ := C03.balanced 2 [2, 2, -1] 2 C21.exTree_aux
    (.ofCheck (fun h => if h < 2 then 0 else 1) (by decide) (by decide) (by decide))
  have h : (⟨1, md, table1 2 (exOne lost)⟩ : HValuesN1 (Long lost)).Holds 2 md (exOne lost) := ⟨rfl, rfl, rfl⟩
  obtain ⟨l0, l1, l2⟩ := C21.exLeaves_aux
  have hW : LeafCover 2 [2, 2, -1] [2] := by
    refine ⟨by decide, fun l hl => ⟨0, ⟨2, rfl, ?_⟩, fun k hk => ?_⟩⟩
    · have : l ∈ leavesUnder 2 [2, 2, -1] 2 := by rw [l2]; simp; omega
      exact (mem_leavesUnder.mp this).2
    · obtain ⟨x, hx, _⟩ := hk
      obtain ⟨hk, _⟩ := List.getElem?_eq_some_iff.mp hx
      simpa using hk
  obtain ⟨q, e, hp⟩ := hierarchicalPc lost R (m := 1) (leaves := 2) (by decide) (by decide) [2, 2, -1] _ r (by decide)
    (fun _ => exOne lost) h.data (fun _ i _ _ => exOne_datum_aux lost i)
  obtain ⟨P, g1, g2, _⟩ := hp (exP lost R) (by show (0 : ℚ) ≤ 1; norm_num) (by show (1 : ℚ) ≤ 1; norm_num) [2] (fun L => 2 ∈ L) hW (by
    intro L hL hne
    rw [(exP_aux lost R).1, (exP_aux lost R).2]
    have hx : ∀ x ∈ L, x = 0 ∨ x = 1 := by
      intro x hx
      have h3 : x < 3 := hL.1 x hx
      have : x ≠ 2 := fun h => hne (h ▸ hx)
      omega
    refine C83.beatsSingles_aux (le_refl _) l2 (fun x hx' => ?_) ?_
    · rcases hx x hx' with rfl | rfl
      · exact .inl l0
      · exact .inr l1
    · have hs : L ⊆ [0, 1] := fun x hx' => by simpa using hx x hx'
      exact (List.subperm_of_subset (leafCover_nodup C21.exTree_aux hL) hs).length_le)
  exact ⟨_, q, P, e, hrt, g1, g2⟩

end Lp.C93
