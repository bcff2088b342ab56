import Verif.Proofs.DExact
import Verif.Proofs.DProducts
import Verif.Proofs.CoarseFirst
import Verif.Props.C07
import Verif.Spec.Float
import Verif.Spec.Tiling
import Verif.Props.C20
import Mathlib.Tactic.IntervalCases
import Verif.Proofs.Samples

/-!
# C21 — how far the spatiotemporal partition is optimal

The returned partition is optimal among the partitions of the cells that are `CoarseFirst` (`Spec/CoarseFirst.lean`: a
rectangle of a node ends before any rectangle of a proper descendant begins), and is one of them.  These include every
product of a partition of the leaves with tilings of the slices, and, for a single slice, all partitions.  Among all
partitions it is not optimal (`notOptimal`, and `notOptimalData` for qualities computed from data).
-/

namespace Lp.C21
open Spec

/-- For exact qualities and any rounding of the weights `p` and `1-p`: the returned parts are a coarse-first partition
`L` of the cells; the reported quality is that of `L`; every coarse-first partition has a
smaller value, or the same value and a smaller gain, or the same value and gain and at least the loss. -/
theorem optimal {F K : Type} [Field K] [LinearOrder K] [IsStrictOrderedRing K] [FloatP F K]
    (leaves : Nat) (parents : List Int) (md : HMeta)
    (hmd : RightMeta leaves parents md) (n : Nat) (h0 : 0 < n) (hn : n ≤ 65535)
    (q : List (UTM (Quality K))) (Q : Nat → Nat → Nat → Quality K) (hq : MRep q parents.length n Q) (p : F) :
    ∃ (P : DPartition F K) (L : List Rect), dBestPartition q md p = .ok P ∧ CellCover leaves parents n L ∧
      CoarseFirst parents L ∧
      P.parts.map (fun x => ((⟨x.h, x.start, x.end⟩ : Rect), x.quality)) =
        L.map (fun r => (r, Q r.node r.first r.last)) ∧
      P.quality = ⟨gainOf (fun r : Rect => Q r.node r.first r.last) L, lossOf (fun r : Rect => Q r.node r.first r.last) L⟩ ∧
      ∀ L', CellCover leaves parents n L' → CoarseFirst parents L' →
        let v := valueOf (FloatP.toK p) (FloatP.toK (FloatP.oneSub p)) (fun r : Rect => Q r.node r.first r.last)
        let gain := gainOf (fun r : Rect => Q r.node r.first r.last)
        let loss := lossOf (fun r : Rect => Q r.node r.first r.last)
        v L' < v L ∨ (v L' = v L ∧ (gain L' < gain L ∨ (gain L' = gain L ∧ loss L ≤ loss L'))) := by
  obtain ⟨P, ds, L, h1, h2, h3, _, h5⟩ := dBest_first hmd hq h0 hn p
  refine ⟨P, L, h1, dSol_cellCover hmd h0 h5.mem, dSol_coarse hmd h0 h5.mem, ?_, h3, ?_⟩
  · rw [h2, List.map_map]; rfl
  · intro L' hc hf
    obtain ⟨ds', L'', hs, hp⟩ := coarse_dSol hmd h0 hc hf
    have hg : gainOf (rq Q) L'' = gainOf (rq Q) L' := by unfold gainOf; rw [(hp.map _).sum_eq]
    have hl : lossOf (rq Q) L'' = lossOf (rq Q) L' := by unfold lossOf; rw [(hp.map _).sum_eq]
    have := h5.best ds' L'' hs
    unfold LexLe valueOf at this
    rw [hg, hl] at this
    exact this

/-- In particular no partition that takes a partition of the leaves into nodes and tiles the time of each of these
nodes separately has a larger value (exact parameter arithmetic). -/
theorem optimalProducts {K : Type} [Field K] [LinearOrder K] [IsStrictOrderedRing K]
    (leaves : Nat) (parents : List Int) (md : HMeta)
    (hmd : RightMeta leaves parents md) (n : Nat) (h0 : 0 < n) (hn : n ≤ 65535)
    (q : List (UTM (Quality K))) (Q : Nat → Nat → Nat → Quality K) (hq : MRep q parents.length n Q) (p : K) :
    ∃ P : DPartition K K, dBestPartition q md p = .ok P ∧
      ∀ (M : List Nat) (tiling : Nat → List (Nat × Nat)), LeafCover leaves parents M →
        (∀ h ∈ M, Tiles 0 n (tiling h)) →
        let L' := M.flatMap (fun h => (tiling h).map (fun I => (⟨h, I.1, I.2⟩ : Rect)))
        let quality := fun r : Rect => Q r.node r.first r.last
        p * gainOf quality L' - (1 - p) * lossOf quality L' ≤ p * P.quality.gain - (1 - p) * P.quality.loss := by
  obtain ⟨P, ds, L, h1, h2, h3, _, h5⟩ := dBest_first hmd hq h0 hn p
  refine ⟨P, h1, ?_⟩
  intro M tiling hM ht L' quality
  obtain ⟨ds', L'', hs, hperm⟩ := product_dSol hmd h0 hM ht
  have hb := (h5.best ds' L'' hs).value
  have hg : gainOf quality L' = gainOf (rq Q) L'' := by unfold gainOf; exact (hperm.map _).sum_eq.symm
  have hl : lossOf quality L' = lossOf (rq Q) L'' := by unfold lossOf; exact (hperm.map _).sum_eq.symm
  rw [h3, hg, hl]
  exact hb

/-- With a single slice no partition of the cells at all has a larger value. -/
theorem optimalOneSlice {K : Type} [Field K] [LinearOrder K] [IsStrictOrderedRing K]
    (leaves : Nat) (parents : List Int) (md : HMeta) (hmd : RightMeta leaves parents md)
    (q : List (UTM (Quality K))) (Q : Nat → Nat → Nat → Quality K) (hq : MRep q parents.length 1 Q) (p : K) :
    ∃ P : DPartition K K, dBestPartition q md p = .ok P ∧
      ∀ L', CellCover leaves parents 1 L' →
        let quality := fun r : Rect => Q r.node r.first r.last
        p * gainOf quality L' - (1 - p) * lossOf quality L' ≤ p * P.quality.gain - (1 - p) * P.quality.loss := by
  obtain ⟨P, ds, L, h1, h2, h3, _, h5⟩ := dBest_first hmd hq (by norm_num) (by norm_num) p
  refine ⟨P, h1, ?_⟩
  intro L' hL' quality
  obtain ⟨ds', L'', hs, hperm⟩ := coarse_dSol hmd (by norm_num) hL' (oneSlice_coarse hmd.tree hL')
  have hb := (h5.best ds' L'' hs).value
  have hg : gainOf quality L' = gainOf (rq Q) L'' := by unfold gainOf; exact (hperm.map _).sum_eq.symm
  have hl : lossOf quality L' = lossOf (rq Q) L'' := by unfold lossOf; exact (hperm.map _).sum_eq.symm
  rw [h3, hg, hl]
  exact hb

/-! ## Among all partitions it is not optimal -/

/-- Two leaves, a root, two slices: aggregating the second slice at the root and not the first is best, and is not
found. Cells per node: `(0,0) (1,1) (0,1)`. -/
def exQ : List (UTM (Quality ℚ)) :=
  [⟨2, [⟨0, 0⟩, ⟨0, 0⟩, ⟨0, 1⟩]⟩, ⟨2, [⟨0, 0⟩, ⟨0, 0⟩, ⟨0, 1⟩]⟩, ⟨2, [⟨0, 2⟩, ⟨2, 0⟩, ⟨3, 4⟩]⟩]

/-- The quality of rectangle `r` in that table. -/
def exq (r : Rect) : Quality ℚ :=
  ((exQ[r.node]?).bind (fun m => m.data[UTM.index 2 r.first r.last]?)).getD ⟨0, 0⟩

/-- The returned partition of `exQ` at `p = 1/4` consists of the four cells and has value 0, while the partition
into the two cells of the first slice and the root for the second slice covers every cell exactly once and has
value `1/2`. -/
theorem notOptimal :
    (do let md ← mkMeta 2 [2, 2, -1]
        let P ← dBestPartition exQ md (1 / 4 : ℚ)
        return (P.parts.map (fun x => (⟨x.h, x.start, x.end⟩ : Rect)),
          1 / 4 * P.quality.gain - (1 - 1 / 4) * P.quality.loss) : Res (List Rect × ℚ)) =
      .ok ([⟨0, 0, 0⟩, ⟨0, 1, 1⟩, ⟨1, 0, 0⟩, ⟨1, 1, 1⟩], 0) ∧
    CellCover 2 [2, 2, -1] 2 [⟨0, 0, 0⟩, ⟨1, 0, 0⟩, ⟨2, 1, 1⟩] ∧
    valueOf (1 / 4) (1 - 1 / 4) exq [⟨0, 0, 0⟩, ⟨1, 0, 0⟩, ⟨2, 1, 1⟩] = 1 / 2 := by
  refine ⟨by decide +kernel, ⟨by decide, ?_⟩, by decide +kernel⟩
  have u : ∀ a l, Under [2, 2, -1] a l ↔ (a = l ∨ (a = 2 ∧ l < 2)) := by
    intro a l
    constructor
    · intro h
      induction h with
      | self => exact Or.inl rfl
      | @up h p hp _ ih =>
        unfold ParentIs at hp
        match h, hp with
        | 0, hp => simp at hp; have : p = 2 := by omega
                   subst this; right; constructor <;> omega
        | 1, hp => simp at hp; have : p = 2 := by omega
                   subst this; right; constructor <;> omega
        | 2, hp => simp at hp
        | h + 3, hp => simp at hp
    · rintro (rfl | ⟨rfl, hl⟩)
      · exact .self
      · match l, hl with
        | 0, _ => exact .up (p := 2) rfl .self
        | 1, _ => exact .up (p := 2) rfl .self
  classical
  intro l t hl ht
  rw [exactlyOne_countP]
  have hu2 : ∀ a, Under [2, 2, -1] a l ↔ (a = l ∨ a = 2) := by intro a; rw [u]; simp [hl]
  unfold Rect.Has
  simp only [hu2]
  interval_cases l <;> interval_cases t <;> simp [List.countP_cons]

/-! ### Also for data -/

/-- Two leaves, two slices: leaf 0 has the values 0, 1 and leaf 1 the values 2, 1. -/
def exData (x : Nat × Nat) : ℝ := if x.2 = 1 then 1 else if x.1 = 0 then 0 else 2

theorem exTree_aux : IsTree 2 [2, 2, -1] 2 :=
  .ofCheck (fun h => if h < 2 then 1 else 0) (by decide) (by decide) (by decide) (by decide)

theorem exLeaves_aux : leavesUnder 2 [2, 2, -1] 0 = {0} ∧ leavesUnder 2 [2, 2, -1] 1 = {1} ∧
    leavesUnder 2 [2, 2, -1] 2 = {0, 1} := by
  refine ⟨leavesUnder_leaf exTree_aux (by decide), leavesUnder_leaf exTree_aux (by decide), ?_⟩
  ext l
  rw [mem_leavesUnder]
  constructor
  · intro h; have := h.1; simp; omega
  · intro h
    simp at h
    rcases h with rfl | rfl
    · exact ⟨by decide, .up (p := 2) rfl .self⟩
    · exact ⟨by decide, .up (p := 2) rfl .self⟩

theorem log3_aux : Real.logb 2 3 ≤ 8 / 5 := by
  have : Real.logb 2 ((3 : ℝ) ^ 5) ≤ Real.logb 2 ((2 : ℝ) ^ 8) :=
    Real.logb_le_logb_of_le (by norm_num) (by norm_num) (by norm_num)
  rw [Real.logb_pow, Real.logb_pow, Real.logb_self_eq_one (by norm_num)] at this
  push_cast at this
  linarith

/-- The quality of node `h` and slices `i..j` of that data. -/
noncomputable def exDQ (h i j : Nat) : Quality ℝ :=
  ⟨gainOver (leavesUnder 2 [2, 2, -1] h ×ˢ Finset.Icc i j) exData, lossOver (leavesUnder 2 [2, 2, -1] h ×ˢ Finset.Icc i j) exData⟩

theorem exCells_aux : (Finset.Icc 0 0 = ({0} : Finset Nat)) ∧ (Finset.Icc 1 1 = ({1} : Finset Nat)) ∧
    (Finset.Icc 0 1 = ({0, 1} : Finset Nat)) := by decide

theorem exQ_aux : exDQ 0 0 0 = ⟨0, 0⟩ ∧ exDQ 0 1 1 = ⟨0, 0⟩ ∧ exDQ 1 0 0 = ⟨0, 0⟩ ∧ exDQ 1 1 1 = ⟨0, 0⟩ ∧
    exDQ 0 0 1 = ⟨0, 1⟩ ∧ exDQ 1 0 1 = ⟨3 * Real.logb 2 3 - 2, 5 - 3 * Real.logb 2 3⟩ ∧
    exDQ 2 0 0 = ⟨0, 2⟩ ∧ exDQ 2 1 1 = ⟨2, 0⟩ ∧ exDQ 2 0 1 = ⟨6, 2⟩ := by
  obtain ⟨l0, l1, l2⟩ := exLeaves_aux
  obtain ⟨c0, c1, c2⟩ := exCells_aux
  have p1 : (({0, 1} : Finset Nat) ×ˢ ({0, 1} : Finset Nat)) = {(0, 0), (0, 1), (1, 0), (1, 1)} := by decide
  have p2 : (({0} : Finset Nat) ×ˢ ({0, 1} : Finset Nat)) = {(0, 0), (0, 1)} := by decide
  have p3 : (({1} : Finset Nat) ×ˢ ({0, 1} : Finset Nat)) = {(1, 0), (1, 1)} := by decide
  have p4 : (({0, 1} : Finset Nat) ×ˢ ({0} : Finset Nat)) = {(0, 0), (1, 0)} := by decide
  have p5 : (({0, 1} : Finset Nat) ×ˢ ({1} : Finset Nat)) = {(0, 1), (1, 1)} := by decide
  have q1 : (({(0, 0), (0, 1), (1, 0), (1, 1)} : Finset (Nat × Nat))).card = 4 := by decide
  have log2 : Real.logb 2 2 = 1 := Real.logb_self_eq_one (by norm_num)
  have log4 : Real.logb 2 4 = 2 := by
    rw [show (4 : ℝ) = 2 ^ 2 by norm_num, Real.logb_pow, log2]; norm_num
  refine ⟨?_, ?_, ?_, ?_, ?_, ?_, ?_, ?_, ?_⟩ <;>
    (unfold exDQ gainOver lossOver gainOver xlog2
     simp only [l0, l1, l2, c0, c1, c2, p1, p2, p3, p4, p5]
     simp [exData, log4, q1]) <;>
    norm_num [log2, log4] <;> (try ring)

/-- The value of a rectangle of that data at `p = 1/16`. -/
noncomputable def exDV (r : Rect) : ℝ := 1 / 16 * (exDQ r.node r.first r.last).gain - (1 - 1 / 16) * (exDQ r.node r.first r.last).loss

theorem exSum_aux (L : List Rect) :
    valueOf (1 / 16) (1 - 1 / 16) (fun r : Rect => exDQ r.node r.first r.last) L = (L.map exDV).sum := by
  induction L with
  | nil => simp [valueOf]
  | cons a L ih =>
    rw [List.map_cons, List.sum_cons, ← ih]
    unfold valueOf exDV
    simp only [gainOf_cons, lossOf_cons]
    ring

theorem exFlat_aux (C : List Nat) (f : Nat → List Rect) (h : ∀ c ∈ C, ((f c).map exDV).sum ≤ 0) :
    ((C.flatMap f).map exDV).sum ≤ 0 := by
  induction C with
  | nil => simp
  | cons c C ih =>
    rw [List.flatMap_cons, List.map_append, List.sum_append]
    have h1 := h c (by simp)
    have h2 := ih (fun x hx => h x (by simp [hx]))
    linarith

theorem exKids_aux {c h : Nat} (hp : ParentIs [2, 2, -1] c h) : c < 2 ∧ h = 2 := by
  unfold ParentIs at hp
  match c, hp with
  | 0, hp => simp at hp; omega
  | 1, hp => simp at hp; omega
  | 2, hp => simp at hp
  | c + 3, hp => simp at hp

/-- Coarse-first partitions below a leaf. -/
theorem exLeaf_aux {h i : Nat} {L : List Rect} (hh : h < 2) (hi : i < 2) (hs : SufPart [2, 2, -1] 2 h i L) :
    (L.map exDV).sum ≤ 0 := by
  obtain ⟨a1, a2, a3, a4, a5, a6, a7, a8, a9⟩ := exQ_aux
  have l3 := log3_aux
  have whole1 : ∀ {L}, SufPart [2, 2, -1] 2 h 1 L → (L.map exDV).sum ≤ 0 := by
    intro L hs
    cases hs with
    | whole => interval_cases h <;> simp [exDV, a2, a4]
    | cut h1 h2 => omega
    | split C f hex => obtain ⟨c, hc⟩ := hex; have := exKids_aux hc; omega
  interval_cases i
  · cases hs with
    | whole =>
      interval_cases h
      · simp [exDV, a5]; norm_num
      · simp [exDV, a6]; linarith
    | @cut _ _ c L h1 h2 h3 =>
      have : c = 0 := by omega
      subst this
      have := whole1 h3
      rw [List.map_cons, List.sum_cons]
      interval_cases h <;> simpa [exDV, a1, a3] using this
    | split C f hex => obtain ⟨c, hc⟩ := hex; have := exKids_aux hc; omega
  · exact whole1 hs

/-- Coarse-first partitions of all cells. -/
theorem exRoot_aux {L : List Rect} (hs : SufPart [2, 2, -1] 2 2 0 L) : (L.map exDV).sum ≤ 0 := by
  obtain ⟨a1, a2, a3, a4, a5, a6, a7, a8, a9⟩ := exQ_aux
  have split : ∀ {i : Nat} {C : List Nat} {f : Nat → List Rect}, i < 2 → (∀ c, c ∈ C ↔ ParentIs [2, 2, -1] c 2) →
      (∀ c, ParentIs [2, 2, -1] c 2 → SufPart [2, 2, -1] 2 c i (f c)) → ((C.flatMap f).map exDV).sum ≤ 0 := by
    intro i C f hi hm hf
    refine exFlat_aux _ _ (fun c hc => ?_)
    have hp := (hm c).mp hc
    exact exLeaf_aux (exKids_aux hp).1 hi (hf c hp)
  cases hs with
  | whole => simp [exDV, a9]; norm_num
  | @cut _ _ c L h1 h2 h3 =>
    have : c = 0 := by omega
    subst this
    have : (L.map exDV).sum ≤ 1 / 8 := by
      cases h3 with
      | whole => simp [exDV, a8]; norm_num
      | cut h1 h2 => omega
      | split C f _ _ hm hf => exact (split (by norm_num) hm hf).trans (by norm_num)
    rw [List.map_cons, List.sum_cons]
    simp only [exDV, a7]
    linarith
  | split C f _ _ hm hf => exact split (by norm_num) hm hf

/-- For the data `0 1` (leaf 0) and `2 1` (leaf 1), `p = 1/16`, exact arithmetic: the value of the returned partition
is at most 0, while the cells of the first slice and the root for the second slice are a partition of value `1/8`. -/
theorem notOptimalData : ∃ (c : DValuesN2 ℝ) (q : List (UTM (Quality ℝ))) (P : DPartition ℝ ℝ) (Q : Nat → Nat → Nat → Quality ℝ),
    DValuesN2.ofVec [[0, 1], [2, 1]] [2, 2, -1] = .ok c ∧
    (DQualities.ofValues c.toDValues).computeQualities = .ok ⟨some c.toDValues, some q, c.md⟩ ∧
    dBestPartition q c.md (1 / 16 : ℝ) = .ok P ∧
    1 / 16 * P.quality.gain - (1 - 1 / 16) * P.quality.loss ≤ 0 ∧
    CellCover 2 [2, 2, -1] 2 [⟨0, 0, 0⟩, ⟨1, 0, 0⟩, ⟨2, 1, 1⟩] ∧
    (∀ h i j, h < 3 → i ≤ j → j < 2 → mget q h i j = .ok (Q h i j)) ∧
    valueOf (1 / 16) (1 - 1 / 16) (fun r : Rect => Q r.node r.first r.last) [⟨0, 0, 0⟩, ⟨1, 0, 0⟩, ⟨2, 1, 1⟩] = 1 / 8 := by
  have hb : NearestFirst 2 [2, 2, -1] := by
    refine balanced_nearestFirst exTree_aux ?_
    exact .ofCheck (fun h => if h < 2 then 0 else 1) (by decide) (by decide) (by decide)
  obtain ⟨md, hm, _, hr⟩ := C03.right 2 [2, 2, -1] 2 exTree_aux hb
  have ht : ([[0, 1], [2, 1]] : List (List ℝ)) = table2 2 2 exData := by
    simp [table2, table1, exData, List.range_succ]
  have hc : DValuesN2.ofVec [[0, 1], [2, 1]] [2, 2, -1] = .ok ⟨1, 2, md, table2 2 2 exData⟩ := by
    rw [ht]
    unfold DValuesN2.ofVec
    rw [SIZE1_table2, hm, SIZE2_table2 (by norm_num)]
    rfl
  obtain ⟨md', hm', hh⟩ := DValuesN2.ofVec_holds (by norm_num) exData (ht ▸ hc)
  obtain ⟨q, h1, h2⟩ := dqCompute_entropy hr (by norm_num) (v := DValuesN2.toDValues ⟨1, 2, md, table2 2 2 exData⟩)
    hh.data (by norm_num) (by norm_num) (fun k l x _ _ _ => by unfold exData; split <;> (try split) <;> norm_num)
  have hq : MRep q 3 2 exDQ := h2.congr (fun h i j _ _ _ => by unfold exDQ gainSeries lossSeries; simp)
  obtain ⟨P, ds, L, e1, e2, e3, e4, e5⟩ := dBest_first hr hq (by norm_num) (by norm_num) (1 / 16 : ℝ)
  refine ⟨_, q, P, exDQ, hc, ?_, e1, ?_, notOptimal.2.1, fun h i j hh hij hj => hq.get hh hij hj, ?_⟩
  · unfold DQualities.computeQualities DQualities.ofValues
    have h1' : dqCompute (DValuesN2.toDValues ⟨1, 2, md, table2 2 2 exData⟩)
      (DValuesN2.toDValues ⟨1, 2, md, table2 2 2 exData⟩).md = .ok q := h1
    simp only [h1', okBind, pureOk]
    rfl
  · have := dSol_sufPart hr _ _ md.root 0 ds L (Nat.lt_succ_self _) hr.last (by norm_num) e5.mem
    have hroot : md.root = 2 := by
      have h3 := hr.tree.rootPar
      match hmr : md.root, h3 with
      | 0, h3 => simp at h3
      | 1, h3 => simp at h3
      | 2, _ => rfl
      | k + 3, h3 => simp at h3
    rw [hroot] at this
    have := exRoot_aux this
    rw [← exSum_aux] at this
    rw [e3]
    exact this
  · obtain ⟨a1, a2, a3, a4, a5, a6, a7, a8, a9⟩ := exQ_aux
    rw [exSum_aux]
    simp [exDV, a1, a3, a8]
    norm_num

/-! ## A concrete case of the hypotheses -/

theorem exRep_aux : MRep exQ 3 2 (fun h i j => exq ⟨h, i, j⟩) := by
  refine ⟨rfl, ?_⟩
  intro h hh
  have key : ∀ t : UTM (Quality ℚ), exQ[h]? = some t → t.size = 2 → t.data.length = 3 →
      ∃ t, exQ[h]? = some t ∧ t.Rep 2 (fun i j => exq ⟨h, i, j⟩) := by
    intro t ht h1 h2
    refine ⟨t, ht, by decide, h1, h2, ?_⟩
    intro i j hij hj
    have hx : UTM.index 2 i j < t.data.length := by
      rw [h2]; exact UTM.index_lt (n := 2) (by decide) hij hj
    simp only [exq, ht, Option.bind_some]
    simp [hx]
  match h, hh with
  | 0, _ => exact key _ rfl rfl rfl
  | 1, _ => exact key _ rfl rfl rfl
  | 2, _ => exact key _ rfl rfl rfl

/-- The theorem `optimalProducts` applied to the table `exQ`: no separate tilings of the leaves and of the root do
better than the returned partition. -/
example : ∃ (md : HMeta) (P : DPartition ℚ ℚ), mkMeta 2 [2, 2, -1] = .ok md ∧ dBestPartition exQ md (1 / 4 : ℚ) = .ok P ∧
    ∀ (M : List Nat) (tiling : Nat → List (Nat × Nat)), LeafCover 2 [2, 2, -1] M → (∀ h ∈ M, Tiles 0 2 (tiling h)) →
      1 / 4 * gainOf exq (M.flatMap (fun h => (tiling h).map (fun I => (⟨h, I.1, I.2⟩ : Rect)))) -
          (1 - 1 / 4) * lossOf exq (M.flatMap (fun h => (tiling h).map (fun I => (⟨h, I.1, I.2⟩ : Rect)))) ≤
        1 / 4 * P.quality.gain - (1 - 1 / 4) * P.quality.loss := by
  obtain ⟨md, h1, _, h2⟩ := C03.balanced 2 [2, 2, -1] 2 exTree_aux
    (.ofCheck (fun h => if h < 2 then 0 else 1) (by decide) (by decide) (by decide))
  obtain ⟨P, h3, h4⟩ := optimalProducts 2 [2, 2, -1] md h2 2 (by decide) (by decide) exQ _ exRep_aux (1 / 4 : ℚ)
  exact ⟨md, P, h1, h3, h4⟩

/-! ## The hypotheses are met by concrete inputs (`Proofs/Samples.lean`) -/

example := optimal 4 Sample.tree Sample.md Sample.right 3 (by decide) (by decide) Sample.dQ _ Sample.dRep (1 / 2 : ℚ)
example := optimalOneSlice 4 Sample.tree Sample.md Sample.right _ _ Sample.sliceRep (1 / 2 : ℚ)

end Lp.C21
