import Verif.Proofs.Weights
import Verif.Proofs.HExact
import Verif.Props.C16
import Verif.Props.C19
import Verif.Props.C21
import Verif.Props.C22
import Verif.Proofs.Samples

/-!
# C23 — no better partition in both gain and loss

`Dominates`: at least the gain and at most the loss, one of them strictly.
Ordered: every `p` in `[0,1]`, against all tilings.  Hierarchical: every `p` in `(0,1)` for any qualities, every `p` in
`[0,1)` for qualities of non-negative data; not at `p = 1` (`hierarchicalAtOne`, `hierarchicalAtOneData`: the code keeps
the coarser of two partitions of the same value).  Spatiotemporal: every `p` in `[0,1]` against the coarse-first partitions
(C21); not against all (`spatiotemporalDominated`).
-/

namespace Lp.C23
open Spec
variable {F K : Type} [Field K] [LinearOrder K]

/-- A partition with gain `g'` and loss `l'` is better than one of quality `q` in both respects. -/
def Dominates (g' l' : K) (q : Quality K) : Prop := q.gain ≤ g' ∧ l' ≤ q.loss ∧ (q.gain < g' ∨ l' < q.loss)

instance (g' l' : K) (q : Quality K) : Decidable (Dominates g' l' q) := inferInstanceAs (Decidable (_ ∧ _ ∧ (_ ∨ _)))

variable [IsStrictOrderedRing K] [FloatP F K] {u : K}

/-- Ordered: for every `p` in `[0,1]` no tiling dominates the returned partition. -/
theorem ordered (fl : FloatLaws F K u) (q : UTM (Quality K)) (n : Nat) (f : Nat → Nat → Quality K) (hq : q.Rep n f)
    (p : F) (h0 : (0 : K) ≤ FloatP.toK p) (h1 : (FloatP.toK p : K) ≤ 1) :
    ∃ P : OPartition F K, oBestPartition q p = .ok P ∧
      ∀ L', Tiles 0 n L' → ¬ Dominates (gainOf (fun I => f I.1 I.2) L') (lossOf (fun I => f I.1 I.2) L') P.quality := by
  obtain ⟨P, ds, L, e1, _, e3, _, e5⟩ := oBest_lex hq p
  refine ⟨P, e1, fun L' hL' => ?_⟩
  obtain ⟨ds', hs'⟩ := tiles_oSol hL'
  rw [e3]
  exact pareto_of_lex h0 (wLoss_nonneg fl h1) (e5.best ds' L' hs')

/-- Hierarchical, `0 < p < 1`: no partition of the leaves into nodes dominates the returned one. -/
theorem hierarchical (fl : FloatLaws F K u) (leaves : Nat) (parents : List Int) (md : HMeta)
    (hmd : RightMeta leaves parents md) (hlt : leaves < parents.length)
    (q : List (Quality K)) (Q : Nat → Quality K) (hq : VRep q parents.length Q)
    (p : F) (h0 : (0 : K) < FloatP.toK p) (h1 : (FloatP.toK p : K) < 1) :
    ∃ P : HPartition F K, hBestPartition q md p = .ok P ∧
      ∀ L', LeafCover leaves parents L' → ¬ Dominates (gainOf Q L') (lossOf Q L') P.quality := by
  obtain ⟨P, L, e1, _, _, e4, e5⟩ := C19.optimal leaves parents md hmd hlt q Q hq p
  refine ⟨P, e1, fun L' hL' => ?_⟩
  rw [e4]
  exact pareto_of_val h0 (wLoss_pos fl h1) (e5 L' hL').1

/-- Hierarchical, qualities of non-negative data, `0 ≤ p < 1`: no partition of the leaves into nodes dominates the
returned one. -/
theorem hierarchicalData {F : Type} [FloatP F ℝ] {u : ℝ} (fl : FloatLaws F ℝ u) (leaves : Nat) (parents : List Int) (v : HValues ℝ)
    (hmd : RightMeta leaves parents v.md) (hlt : leaves < parents.length) (m : Nat) (V : Nat → Nat → ℝ)
    (hv : HData v m leaves V) (h0 : ∀ k h, k < m → h < leaves → 0 ≤ V k h) :
    ∃ (q : List (Quality ℝ)) (Q : Nat → Quality ℝ),
      (HQualities.ofValues v).computeQualities = .ok ⟨some v, some q, v.md⟩ ∧
      (∀ h, h < parents.length → q[h]? = some (Q h)) ∧
      ∀ p : F, (0 : ℝ) ≤ FloatP.toK p → (FloatP.toK p : ℝ) < 1 → ∃ P, hBestPartition q v.md p = .ok P ∧
        ∀ L', LeafCover leaves parents L' → ¬ Dominates (gainOf Q L') (lossOf Q L') P.quality := by
  obtain ⟨q, Q, e1, e2, e3, _⟩ := C22.hierarchical fl leaves parents v hmd hlt m V hv h0
  obtain ⟨q', e1', hq⟩ := hq_object hmd hlt hv h0
  rw [e1] at e1'
  have : q = q' := by simpa using e1'
  subst this
  have hQ : ∀ h, h < parents.length → Q h = entQ m V (leavesUnder leaves parents h) := by
    intro h hh
    have := (e2 h hh).symm.trans (hq.cell h hh)
    simpa using this
  have hq' : VRep q parents.length Q := ⟨hq.1, fun h hh => e2 h hh⟩
  refine ⟨q, Q, e1, e2, fun p hp0 hp1 => ?_⟩
  rcases lt_or_eq_of_le hp0 with hp | hp
  · exact hierarchical fl leaves parents v.md hmd hlt q Q hq' p hp hp1
  · obtain ⟨P, e4, e5, e6⟩ := e3 p hp.symm
    refine ⟨P, e4, fun L' hL' hd => ?_⟩
    obtain ⟨d1, d2, d3⟩ := hd
    have hnn : 0 ≤ lossOf Q L' := lossOf_nonneg (fun x hx => by
      rw [hQ x (hL'.1 x hx)]
      exact lossSeries_nonneg (fun k hk y hy => h0 k y hk (mem_leavesUnder.mp hy).1))
    rw [e5] at d2 d3
    have hz : lossOf Q L' = 0 := le_antisymm d2 hnn
    have := (e6 L' hL' hz).2
    rcases d3 with d3 | d3 <;> linarith

/-- Spatiotemporal: for every `p` in `[0,1]` no coarse-first partition dominates the returned one. -/
theorem spatiotemporal (fl : FloatLaws F K u) (leaves : Nat) (parents : List Int) (md : HMeta)
    (hmd : RightMeta leaves parents md) (n : Nat) (hn0 : 0 < n) (hn : n ≤ 65535)
    (q : List (UTM (Quality K))) (Q : Nat → Nat → Nat → Quality K) (hq : MRep q parents.length n Q)
    (p : F) (h0 : (0 : K) ≤ FloatP.toK p) (h1 : (FloatP.toK p : K) ≤ 1) :
    ∃ P : DPartition F K, dBestPartition q md p = .ok P ∧
      ∀ L', CellCover leaves parents n L' → CoarseFirst parents L' →
        ¬ Dominates (gainOf (fun r : Rect => Q r.node r.first r.last) L')
          (lossOf (fun r : Rect => Q r.node r.first r.last) L') P.quality := by
  obtain ⟨P, L, e1, _, _, _, e5, e6⟩ := C21.optimal leaves parents md hmd n hn0 hn q Q hq p
  refine ⟨P, e1, fun L' hL' hf => ?_⟩
  rw [e5]
  exact pareto_of_lex h0 (wLoss_nonneg fl h1) (e6 L' hL' hf)

/-! ## Witnesses: the restrictions are needed -/

/-- Two leaves and a root of gain 0 and loss 1 (the entropy qualities of the data `[1, 0]`, with `log 2`
normalised to 1): at `p = 1` the code returns the root, although the two leaves have the same gain and less loss. -/
theorem hierarchicalAtOne :
    (do let md ← mkMeta 2 [2, 2, -1]
        let P ← hBestPartition [⟨0, 0⟩, ⟨0, 0⟩, ⟨0, 1⟩] md (1 : ℚ)
        return (P.parts.map HPart.h, P.quality) : Res (List Nat × Quality ℚ)) = .ok ([2], ⟨0, 1⟩) ∧
    LeafCover 2 [2, 2, -1] [0, 1] ∧ Dominates (0 : ℚ) 0 ⟨0, 1⟩ := by
  refine ⟨by decide +kernel, ⟨by decide, ?_⟩, by decide +kernel⟩
  intro l hl
  have u : ∀ a, a < 2 → (Under [2, 2, -1] a l ↔ a = l) := by
    intro a ha
    constructor
    · intro h
      cases h with
      | self => rfl
      | @up _ p hp h2 =>
        have : p = 2 := by
          unfold ParentIs at hp
          match l, hl, hp with
          | 0, _, hp => simp at hp; omega
          | 1, _, hp => simp at hp; omega
        subst this
        cases h2 with
        | self => omega
        | up hp _ => simp [ParentIs] at hp
    · rintro rfl; exact .self
  classical
  match l, hl with
  | 0, _ => exact ⟨0, ⟨0, rfl, .self⟩, by
      rintro k ⟨x, hx, hu⟩
      match k, hx with
      | 0, _ => rfl
      | 1, hx => simp at hx; subst hx; exact absurd ((u 1 (by omega)).mp hu) (by omega)
      | k + 2, hx => simp at hx⟩
  | 1, _ => exact ⟨1, ⟨1, rfl, .self⟩, by
      rintro k ⟨x, hx, hu⟩
      match k, hx with
      | 0, hx => simp at hx; subst hx; exact absurd ((u 0 (by omega)).mp hu) (by omega)
      | 1, _ => rfl
      | k + 2, hx => simp at hx⟩

/-- The same from the data 1 and 0. -/
theorem hierarchicalAtOneData : ∃ (c : HValuesN1 ℝ) (q : List (Quality ℝ)) (P : HPartition ℝ ℝ),
    HValuesN1.ofVec [1, 0] [2, 2, -1] = .ok c ∧
    (HQualities.ofValues c.toHValues).computeQualities = .ok ⟨some c.toHValues, some q, c.md⟩ ∧
    q = [⟨0, 0⟩, ⟨0, 0⟩, ⟨0, 1⟩] ∧
    hBestPartition q c.md (1 : ℝ) = .ok P ∧ P.parts.map HPart.h = [2] ∧ P.quality = ⟨0, 1⟩ := by
  have hb : NearestFirst 2 [2, 2, -1] := by
    refine balanced_nearestFirst C21.exTree_aux ?_
    exact .ofCheck (fun h => if h < 2 then 0 else 1) (by decide) (by decide) (by decide)
  obtain ⟨md, hm, _, hr⟩ := C03.right 2 [2, 2, -1] 2 C21.exTree_aux hb
  have hroot : md.root = 2 := by
    have h3 := hr.tree.rootPar
    match hmr : md.root, h3 with
    | 0, h3 => simp at h3
    | 1, h3 => simp at h3
    | 2, _ => rfl
    | k + 3, h3 => simp at h3
  have hc : HValuesN1.ofVec ([1, 0] : List ℝ) [2, 2, -1] = .ok ⟨1, md, [1, 0]⟩ := by
    unfold HValuesN1.ofVec
    rw [show SIZE1 ([1, 0] : List ℝ) = 2 from rfl, hm]
    rfl
  obtain ⟨md', hm', hh⟩ := HValuesN1.ofVec_holds (fun l => if l = 0 then (1 : ℝ) else 0) (L := 2) (ps := [2, 2, -1]) (c := ⟨1, md, [1, 0]⟩) (by
    rw [← hc]; simp [table1, List.range_succ])
  have hd := hh.data
  have hnn : ∀ k h : Nat, k < 1 → h < 2 → (0 : ℝ) ≤ (if h = 0 then (1 : ℝ) else 0) := by
    intro k h _ _; split <;> norm_num
  obtain ⟨q, Q, e1, e2, _, e4⟩ := C22.hierarchical (exactLaws ℝ) 2 [2, 2, -1] (HValuesN1.toHValues ⟨1, md, [1, 0]⟩) hr
    (by norm_num) 1 _ hd hnn
  obtain ⟨q', e1', hq⟩ := hq_object hr (by norm_num) hd hnn
  rw [e1] at e1'
  have : q = q' := by simpa using e1'
  subst this
  obtain ⟨P, f1, f2, f3⟩ := e4 1 rfl
  have hQ : ∀ h, h < 3 → q[h]? = some (entQ 1 (fun _ l => if l = 0 then (1 : ℝ) else 0) (leavesUnder 2 [2, 2, -1] h)) :=
    fun h hh => hq.cell h hh
  obtain ⟨l0, l1, l2⟩ := C21.exLeaves_aux
  have log2 : Real.logb 2 2 = 1 := Real.logb_self_eq_one (by norm_num)
  have c0 : q[0]? = some ⟨0, 0⟩ := by
    rw [hQ 0 (by norm_num), l0]; simp [entQ, gainSeries, lossSeries, gainOver, lossOver, xlog2]
  have c1 : q[1]? = some ⟨0, 0⟩ := by
    rw [hQ 1 (by norm_num), l1]; simp [entQ, gainSeries, lossSeries, gainOver, lossOver, xlog2]
  have c2 : q[2]? = some ⟨0, 1⟩ := by
    rw [hQ 2 (by norm_num), l2]; simp [entQ, gainSeries, lossSeries, gainOver, lossOver, xlog2, log2]
  have hql : q.length = 3 := hq.1
  refine ⟨_, q, P, hc, e1, ?_, f1, f2.trans (congrArg (fun x => [x]) hroot), ?_⟩
  · apply List.ext_getElem?
    intro i
    match i with
    | 0 => simpa using c0
    | 1 => simpa using c1
    | 2 => simpa using c2
    | i + 3 => simp [hql]
  · rw [f3, show (HValuesN1.toHValues ⟨1, md, [1, 0]⟩ : HValues ℝ).md.root = 2 from hroot]
    have := (e2 2 (by norm_num)).symm.trans c2
    simpa using this

/-- In the example of `C21.notOptimal` the returned partition has gain and loss 0 and the partition that is missed
has gain 2 and loss 0. -/
theorem spatiotemporalDominated :
    (do let md ← mkMeta 2 [2, 2, -1]
        let P ← dBestPartition C21.exQ md (1 / 4 : ℚ)
        return P.quality : Res (Quality ℚ)) = .ok ⟨0, 0⟩ ∧
    CellCover 2 [2, 2, -1] 2 [⟨0, 0, 0⟩, ⟨1, 0, 0⟩, ⟨2, 1, 1⟩] ∧
    Dominates (gainOf C21.exq [⟨0, 0, 0⟩, ⟨1, 0, 0⟩, ⟨2, 1, 1⟩]) (lossOf C21.exq [⟨0, 0, 0⟩, ⟨1, 0, 0⟩, ⟨2, 1, 1⟩])
      (⟨0, 0⟩ : Quality ℚ) :=
  ⟨by decide +kernel, C21.notOptimal.2.1, by decide +kernel⟩

/-- The hypotheses are met by the table of `C16`. -/
example : ∃ P : OPartition ℚ ℚ, oBestPartition C16.exQ (1 / 2 : ℚ) = .ok P ∧
    ∀ L', Tiles 0 3 L' →
      ¬ Dominates (gainOf (fun I => C16.exF I.1 I.2) L') (lossOf (fun I => C16.exF I.1 I.2) L') P.quality :=
  ordered (exactLaws ℚ) C16.exQ 3 C16.exF C16.exRep (1 / 2) (by norm_num) (by norm_num)

/-! ## The hypotheses are met by concrete inputs (`Proofs/Samples.lean`) -/

example := hierarchical (exactLaws ℚ) 4 Sample.tree Sample.md Sample.right (by decide) Sample.hQ _ Sample.hRep (1 / 2 : ℚ) (by decide +kernel) (by decide +kernel)
example := hierarchicalData (exactLaws ℝ) 4 Sample.tree Sample.hV Sample.right (by decide) 2 _ Sample.h Sample.h_nonneg
example := spatiotemporal (exactLaws ℚ) 4 Sample.tree Sample.md Sample.right 3 (by decide) (by decide) Sample.dQ _ Sample.dRep (1 / 2 : ℚ) (by decide +kernel) (by decide +kernel)

end Lp.C23
