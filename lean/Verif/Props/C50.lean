import Verif.Proofs.NearPart
import Verif.Proofs.CoarseFirst
import Verif.Props.C03
import Verif.Spec.Float
import Mathlib.Algebra.Order.Ring.Pow
import Mathlib.Tactic.NormNum

/-!
# C50 — with rounded arithmetic the partitions are still nearly optimal

C16, C19 and C21 are about exact quality arithmetic.  Here every addition, subtraction and multiplication of
qualities may be rounded with relative error at most `u` (`RoundedLaws`, `Spec/Rounded.lean`).  `a` and `b` are the weights
`p` and `1-p` as the program computes them.  With `k` the number of elements plus one (leaves plus one; leaves plus
slices), no competing partition `L'` beats the returned `L` by more than `((1+u)^k - 1) * (size L + size L')`, where `size L` is the sum of
`|a*gain| + |b*loss|` over the parts.  Nothing is assumed about signs: tables computed with rounding can contain small
negative numbers.
-/

namespace Lp.C50
open Spec
variable {E : Type} [Field E] [LinearOrder E] [IsStrictOrderedRing E]
variable {F K : Type} [LD K] [FloatP F K]

/-- The numbers the stored quality of `x` stands for. -/
def exact {A : Type} (val : K → E) (q : A → Quality K) (x : A) : Quality E := ⟨val (q x).gain, val (q x).loss⟩

/-- Sum of the absolute values of the terms of `valueOf a b q L`. -/
def size {A : Type} (a b : E) (q : A → Quality E) (L : List A) : E := (L.map (fun x => |a * (q x).gain| + |b * (q x).loss|)).sum

/-- `L'` beats `L` by at most a fraction `c` of their sizes. -/
def Within {A : Type} (c a b : E) (q : A → Quality E) (L L' : List A) : Prop :=
  valueOf a b q L' - valueOf a b q L ≤ c * (size a b q L + size a b q L')

/-- `Q` is the sum of the qualities of the parts, up to a fraction `c` of the sum of their absolute values. -/
def NearSum {A : Type} (c : E) (Q : Quality E) (q : A → Quality E) (L : List A) : Prop :=
  |Q.gain - gainOf q L| ≤ c * (L.map (fun x => |(q x).gain|)).sum ∧
  |Q.loss - lossOf q L| ≤ c * (L.map (fun x => |(q x).loss|)).sum

theorem quality_aux {A : Type} {val : K → E} {u : E} (laws : RoundedLaws val u) (q : A → Quality K) (L : List A) :
    NearSum ((1 + u) ^ (L.length - 1) - 1) ⟨val (sumQuality (L.map q)).gain, val (sumQuality (L.map q)).loss⟩ (exact val q) L := by
  obtain ⟨h1, h2⟩ := near_sumQuality laws q L
  exact ⟨h1.err, h2.err⟩

/-- Tables that satisfy the equations of the program give a nearly optimal partition. -/
theorem ordered_aux {val : K → E} {u : E} (laws : RoundedLaws val u) {n : Nat} {f : Nat → Nat → Quality K} {p : F}
    {T : Nat → Tradeoff K} {C : Nat → Int} {ds : List Nat} {L L' : List (Nat × Nat)}
    (h2 : ∀ i, i < n → (T i, C i) = oRow f n p T i (n - 1)) (h3 : Greedy (oDecs n) (oChoice n C) (oStart n 0) ds L) (hL' : Tiles 0 n L') :
    Within ((1 + u) ^ (n + 1) - 1) (val (FloatP.toK p)) (val (FloatP.toK (FloatP.oneSub p)))
      (exact val (fun I => f I.1 I.2)) L L' := by
  obtain ⟨ds', hs⟩ := tiles_oSol hL'
  unfold Within
  have e := wsum_vpart (val := val) p (fun I : Nat × Nat => f I.1 I.2)
  by_cases hn : 0 < n
  · have hdp := o_rdp laws h2
    have st : oStart n 0 = [0] := by unfold oStart; rw [if_pos hn]
    rw [st] at h3 hs
    have := hdp.nearOptimal hn h3 hs
    rw [e, e] at this
    exact sub_le_comm.mp this
  · have : n = 0 := by omega
    subst this
    have st : oStart 0 0 = [] := by simp [oStart]
    rw [st] at h3 hs
    cases h3
    cases hs
    simp [valueOf, size]

/-- Ordered data: `n` elements. -/
theorem ordered {val : K → E} {u : E} (laws : RoundedLaws val u)
    (q : UTM (Quality K)) (n : Nat) (f : Nat → Nat → Quality K) (hq : q.Rep n f) (p : F) :
    ∃ (P : OPartition F K) (L : List (Nat × Nat)), oBestPartition q p = .ok P ∧ Tiles 0 n L ∧
      P.parts.map (fun x => (x.start, x.end)) = L.map (fun I => ((I.1 : Int), (I.2 : Int))) ∧
      NearSum ((1 + u) ^ (L.length - 1) - 1) ⟨val P.quality.gain, val P.quality.loss⟩ (exact val (fun I => f I.1 I.2)) L ∧
      ∀ L', Tiles 0 n L' →
        Within ((1 + u) ^ (n + 1) - 1) (val (FloatP.toK p)) (val (FloatP.toK (FloatP.oneSub p)))
          (exact val (fun I => f I.1 I.2)) L L' := by
  obtain ⟨P, T, C, ds, L, h1, h2, h3, h4, h5, h6⟩ := oBest_spec hq p
  have ht := oSol_tiles h3.sol 0 rfl (Nat.zero_le _)
  have hq := quality_aux laws (fun I : Nat × Nat => f I.1 I.2) L
  refine ⟨P, L, h1, ht, by rw [h4, List.map_map]; rfl, by rw [h5]; exact hq, ?_⟩
  exact fun L' hL' => ordered_aux laws h2 h3 hL'

theorem hierarchical_aux {val : K → E} {u : E} (laws : RoundedLaws val u) {leaves : Nat} {parents : List Int} {md : HMeta}
    (hmd : RightMeta leaves parents md) {Q : Nat → Quality K} {p : F} {T : Nat → Tradeoff K} {A : Nat → Bool} {ds L L' : List Nat}
    (h2 : ∀ h, h < parents.length → (T h, A h) = hNode leaves parents md.path Q p T h)
    (h3 : Greedy (hDecs leaves md.children) (hChoice A) [md.root] ds L) (hL' : LeafCover leaves parents L') :
    Within ((1 + u) ^ (leaves + 1) - 1) (val (FloatP.toK p)) (val (FloatP.toK (FloatP.oneSub p))) (exact val Q) L L' := by
  obtain ⟨ds', L'', hs, hperm⟩ := leafCover_hSol hmd hL'
  have := (h_rdp laws hmd h2).nearOptimal hmd.tree.rootLt h3 hs
  rw [wsum_vpart, wsum_vpart, leavesUnder_root hmd.tree, Finset.card_range] at this
  have hg : gainOf (exactQ val Q) L'' = gainOf (exactQ val Q) L' := by unfold gainOf; rw [(hperm.map _).sum_eq]
  have hl : lossOf (exactQ val Q) L'' = lossOf (exactQ val Q) L' := by unfold lossOf; rw [(hperm.map _).sum_eq]
  have hm : wsum (mpart val p Q) L'' = wsum (mpart val p Q) L' := wsum_perm _ hperm
  unfold valueOf at this
  rw [hg, hl, hm] at this
  exact sub_le_comm.mp this

/-- Hierarchies: the number of elements is the number of leaves. -/
theorem hierarchical {val : K → E} {u : E} (laws : RoundedLaws val u)
    (leaves : Nat) (parents : List Int) (md : HMeta) (hmd : RightMeta leaves parents md) (hlt : leaves < parents.length)
    (q : List (Quality K)) (Q : Nat → Quality K) (hq : VRep q parents.length Q) (p : F) :
    ∃ (P : HPartition F K) (L : List Nat), hBestPartition q md p = .ok P ∧ LeafCover leaves parents L ∧
      P.parts.map (fun x => x.h) = L ∧
      NearSum ((1 + u) ^ (L.length - 1) - 1) ⟨val P.quality.gain, val P.quality.loss⟩ (exact val Q) L ∧
      ∀ L', LeafCover leaves parents L' →
        Within ((1 + u) ^ (leaves + 1) - 1) (val (FloatP.toK p)) (val (FloatP.toK (FloatP.oneSub p))) (exact val Q) L L' := by
  obtain ⟨P, T, A, ds, L, h1, h2, h3, h4, h5, h6⟩ := hBest_spec hmd hlt hq p
  have hc := hSol_leafCover hmd h3.sol
  have hqq := quality_aux laws Q L
  refine ⟨P, L, h1, hc, ?_, by rw [h5]; exact hqq, ?_⟩
  · rw [h4, List.map_map]; exact List.map_id L
  · exact fun L' hL' => hierarchical_aux laws hmd h2 h3 hL'

theorem spatiotemporal_aux {val : K → E} {u : E} (laws : RoundedLaws val u) {leaves : Nat} {parents : List Int} {md : HMeta}
    (hmd : RightMeta leaves parents md) {n : Nat} (h0 : 0 < n) {Q : Nat → Nat → Nat → Quality K} {p : F} {T : Nat → Nat → Tradeoff K}
    {C : Nat → Nat → Int} {ds : List Nat} {L L' : List Rect}
    (h2 : ∀ h i, h < parents.length → i < n → DEq leaves parents md.path Q p n T C h i)
    (h3 : Greedy (dDecs leaves md.children n) (dChoice leaves n C) [(md.root, 0)] ds L)
    (hL' : CellCover leaves parents n L') (hf' : CoarseFirst parents L') :
    Within ((1 + u) ^ (leaves + n) - 1) (val (FloatP.toK p)) (val (FloatP.toK (FloatP.oneSub p)))
      (exact val (fun r : Rect => Q r.node r.first r.last)) L L' := by
  obtain ⟨ds', L'', hs, hperm⟩ := coarse_dSol hmd h0 hL' hf'
  have := (d_rdp laws hmd h2).nearOptimal ⟨hmd.tree.rootLt, h0⟩ h3 hs
  rw [wsum_vpart, wsum_vpart, leavesUnder_root hmd.tree, Finset.card_range] at this
  have hg : gainOf (exactQ val (rqv Q)) L'' = gainOf (exactQ val (rqv Q)) L' := by unfold gainOf; rw [(hperm.map _).sum_eq]
  have hl : lossOf (exactQ val (rqv Q)) L'' = lossOf (exactQ val (rqv Q)) L' := by unfold lossOf; rw [(hperm.map _).sum_eq]
  have hm : wsum (mpart val p (rqv Q)) L'' = wsum (mpart val p (rqv Q)) L' := wsum_perm _ hperm
  unfold valueOf at this
  rw [hg, hl, hm] at this
  exact sub_le_comm.mp this

/-- Hierarchy × time, against the coarse-first partitions (see C21). -/
theorem spatiotemporal {val : K → E} {u : E} (laws : RoundedLaws val u)
    (leaves : Nat) (parents : List Int) (md : HMeta) (hmd : RightMeta leaves parents md)
    (n : Nat) (h0 : 0 < n) (hn : n ≤ 65535)
    (q : List (UTM (Quality K))) (Q : Nat → Nat → Nat → Quality K) (hq : MRep q parents.length n Q) (p : F) :
    ∃ (P : DPartition F K) (L : List Rect), dBestPartition q md p = .ok P ∧ CellCover leaves parents n L ∧
      CoarseFirst parents L ∧ P.parts.map (fun x => (⟨x.h, x.start, x.end⟩ : Rect)) = L ∧
      NearSum ((1 + u) ^ (L.length - 1) - 1) ⟨val P.quality.gain, val P.quality.loss⟩ (exact val (fun r : Rect => Q r.node r.first r.last)) L ∧
      ∀ L', CellCover leaves parents n L' → CoarseFirst parents L' →
        Within ((1 + u) ^ (leaves + n) - 1) (val (FloatP.toK p)) (val (FloatP.toK (FloatP.oneSub p)))
          (exact val (fun r : Rect => Q r.node r.first r.last)) L L' := by
  obtain ⟨P, T, C, ds, L, h1, h2, h3, h4, h5, h6⟩ := dBest_spec hmd hq h0 hn p
  have hc := dSol_cellCover hmd h0 h3.sol
  have hqq := quality_aux laws (fun r : Rect => Q r.node r.first r.last) L
  refine ⟨P, L, h1, hc, dSol_coarse hmd h0 h3.sol, ?_, by rw [h5]; exact hqq, ?_⟩
  · rw [h4, List.map_map]; exact List.map_id L
  · exact fun L' hL' hf' => spatiotemporal_aux laws hmd h0 h2 h3 hL' hf'

/-! ## The size of the bound -/

/-- The factor is at most `2*k*u`, as long as `k*u ≤ 1/2`. -/
theorem factor (u : E) (k : Nat) (hu : 0 ≤ u) (hk : k * u ≤ 1 / 2) : (1 + u) ^ k - 1 ≤ 2 * (k * u) := by
  rcases Nat.eq_zero_or_pos k with rfl | hk0
  · simp
  have hk1 : (1 : E) ≤ k := by exact_mod_cast hk0
  have hu1 : u ≤ 1 / 2 := le_trans (by nlinarith) hk
  have hb := one_add_mul_le_pow (show (-2 : E) ≤ -u by linarith) k
  have hprod : (1 + u) ^ k * (1 + -u) ^ k ≤ 1 := by
    rw [← mul_pow]
    exact pow_le_one₀ (by nlinarith) (by nlinarith)
  have hpos : 0 ≤ (1 + u) ^ k := by positivity
  have h3 : (1 + u) ^ k * (1 - k * u) ≤ 1 := by
    refine le_trans (mul_le_mul_of_nonneg_left ?_ hpos) hprod
    linarith
  have hge : 1 ≤ (1 + u) ^ k := one_le_pow₀ (by linarith)
  nlinarith [mul_nonneg (Nat.cast_nonneg (α := E) k) hu]

/-- With the 64-bit significand of the x87 `long double` (relative error at most `2^-63` in every rounding mode) and at most
65535 elements the factor is at most `2^-46`. -/
theorem longDouble (n : Nat) (h : n ≤ 65535) : ((1 : ℚ) + (1 / 2 ^ 63 : ℚ)) ^ (n + 1) - 1 ≤ 1 / 2 ^ 46 := by
  have h' : ((n + 1 : Nat) : ℚ) ≤ 65536 := by exact_mod_cast Nat.succ_le_succ h
  refine le_trans (factor _ _ (by positivity) ?_) ?_
  · nlinarith [show (0 : ℚ) < 1 / 2 ^ 63 by positivity]
  · nlinarith [show (0 : ℚ) < 1 / 2 ^ 63 by positivity]

/-! ## The bound is needed: rounding changes the result -/

/-- The parameter, rounded like the qualities. -/
instance roundedP (R : RoundTo E) : FloatP (Rounded R) (Rounded R) where
  toK p := p
  zero := 0
  oneSub p := 1 - p
  sub a b := a - b
  add a b := a + b
  half a := R.to (a.1 / 2)
  lt a b := decide (a < b)

/-- Three significant bits. -/
abbrev R3 : RoundTo ℚ := truncation 2

/-- Two elements: gains 8 and 1 alone, 8 together. -/
def exQ : UTM (Quality (Rounded R3)) := ⟨2, [⟨R3.to 8, 0⟩, ⟨R3.to 1, 0⟩, ⟨R3.to 8, 0⟩]⟩

/-- At `p = 1` the two elements apart have gain 9, which is better than 8; but `8 + 1` rounds to 8, and the program returns
the two elements together. -/
theorem rounding_matters :
    (oBestPartition exQ (1 : Rounded R3)).map (fun P => P.parts.map (fun x => (x.start, x.end))) = .ok [(0, 1)] ∧
    (oBestPartition (⟨2, [⟨8, 0⟩, ⟨1, 0⟩, ⟨8, 0⟩]⟩ : UTM (Quality ℚ)) (1 : ℚ)).map
      (fun P => P.parts.map (fun x => (x.start, x.end))) = .ok [(0, 0), (1, 1)] := by
  constructor <;> decide +kernel

/-! ## The theorems applied -/

/-- Contents of `exQ`. -/
def exF (i j : Nat) : Quality (Rounded R3) := (exQ.data[UTM.index 2 i j]?).getD ⟨0, 0⟩

theorem exRep_aux : exQ.Rep 2 exF := by
  refine ⟨by decide, rfl, rfl, ?_⟩
  intro i j hij hj
  have : UTM.index 2 i j < exQ.data.length := UTM.index_lt (n := 2) (by decide) hij hj
  simp [exF, this]

/-- The ordered example above: what was missed, `9 - 8`, is below the bound. -/
example : ∃ (P : OPartition (Rounded R3) (Rounded R3)) (L : List (Nat × Nat)), oBestPartition exQ 1 = .ok P ∧ Tiles 0 2 L ∧
    ∀ L', Tiles 0 2 L' → Within ((1 + 1 / 4) ^ 3 - 1) 1 0 (exact (fun x => x.1) (fun I => exF I.1 I.2)) L L' := by
  obtain ⟨P, L, h1, h2, _, _, h3⟩ := ordered (roundedLaws R3) exQ 2 exF exRep_aux (1 : Rounded R3)
  have e1 : (FloatP.toK (1 : Rounded R3) : Rounded R3).1 = 1 := rfl
  have e2 : (FloatP.toK (FloatP.oneSub (1 : Rounded R3)) : Rounded R3).1 = 0 := by decide +kernel
  have e3 : R3.u = 1 / 4 := by norm_num [R3, truncation, truncationIn]
  rw [e1, e2, e3] at h3
  exact ⟨P, L, h1, h2, h3⟩

/-- 64-bit significands, two leaves below a root, one slice and two slices. -/
example : ∃ (md : HMeta) (P : HPartition (Rounded (truncation 63)) (Rounded (truncation 63))) (L : List Nat),
    mkMeta 2 [2, 2, -1] = .ok md ∧
    hBestPartition [⟨0, 0⟩, ⟨0, 0⟩, ⟨(truncation 63).to (2 / 3), (truncation 63).to (1 / 3)⟩] md ((truncation 63).to (1 / 3)) = .ok P ∧
    LeafCover 2 [2, 2, -1] L ∧ P.parts.map (fun x => x.h) = L := by
  have t : IsTree 2 [2, 2, -1] 2 :=
    .ofCheck (fun h => if h < 2 then 1 else 0) (by decide) (by decide) (by decide) (by decide)
  obtain ⟨md, h1, _, h3⟩ := C03.right 2 [2, 2, -1] 2 t
    (balanced_nearestFirst t (.ofCheck (fun h => if h < 2 then 0 else 1) (by decide) (by decide) (by decide)))
  obtain ⟨P, L, g1, g2, g3, _⟩ := hierarchical (roundedLaws (truncation 63)) 2 [2, 2, -1] md h3 (by decide)
    [⟨0, 0⟩, ⟨0, 0⟩, ⟨(truncation 63).to (2 / 3), (truncation 63).to (1 / 3)⟩]
    (fun h => if h < 2 then ⟨0, 0⟩ else ⟨(truncation 63).to (2 / 3), (truncation 63).to (1 / 3)⟩)
    ⟨rfl, by
      intro i hi
      match i, hi with
      | 0, _ => rfl
      | 1, _ => rfl
      | 2, _ => rfl⟩
    ((truncation 63).to (1 / 3))
  exact ⟨md, P, L, h1, g1, g2, g3⟩

example : ∃ (md : HMeta) (P : DPartition (Rounded (truncation 63)) (Rounded (truncation 63))) (L : List Rect),
    mkMeta 2 [2, 2, -1] = .ok md ∧
    dBestPartition (List.replicate 3 (UTM.mk' 2 ⟨(truncation 63).to (2 / 3), (truncation 63).to (1 / 3)⟩)) md
      ((truncation 63).to (1 / 3)) = .ok P ∧
    CellCover 2 [2, 2, -1] 2 L ∧ CoarseFirst [2, 2, -1] L ∧ P.parts.map (fun x => (⟨x.h, x.start, x.end⟩ : Rect)) = L := by
  have t : IsTree 2 [2, 2, -1] 2 :=
    .ofCheck (fun h => if h < 2 then 1 else 0) (by decide) (by decide) (by decide) (by decide)
  obtain ⟨md, h1, _, h3⟩ := C03.right 2 [2, 2, -1] 2 t
    (balanced_nearestFirst t (.ofCheck (fun h => if h < 2 then 0 else 1) (by decide) (by decide) (by decide)))
  obtain ⟨P, L, g1, g2, g3, g4, _⟩ := spatiotemporal (roundedLaws (truncation 63)) 2 [2, 2, -1] md h3 2 (by decide) (by decide)
    _ _ (MRep.replicate (by decide) (⟨(truncation 63).to (2 / 3), (truncation 63).to (1 / 3)⟩ : Quality (Rounded (truncation 63))))
    ((truncation 63).to (1 / 3))
  exact ⟨md, P, L, h1, g1, g2, g3, g4⟩

end Lp.C50
