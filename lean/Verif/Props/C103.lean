import Verif.Props.C47
import Verif.Props.C75
import Verif.Proofs.Samples

/-!
# C103 — one slice: the spatiotemporal partition is the hierarchical one, except at p = 1

The hierarchical partitioner compares the values of the trade-offs only (`operator<` of `Tradeoff`), the spatiotemporal one compares the gains of
equal values, and the losses of equal gains (`operator>`).
-/

namespace Lp.C103
open Spec

theorem decs_aux (leaves : Nat) (children : List (List Nat)) (h : Nat) :
    dDecs leaves children 1 (h, 0) =
      (hDecs leaves children h).map (fun x => (x.1.map (fun k => (⟨k, 0, 0⟩ : Rect)), x.2.map (fun k => (k, 0)))) := by
  unfold dDecs hDecs
  by_cases hl : h < leaves <;> simp [hl]

theorem toD_aux {leaves : Nat} {children : List (List Nat)} {st ds L : List Nat} (h : Sol (hDecs leaves children) st ds L) :
    Sol (dDecs leaves children 1) (st.map (fun k => (k, 0))) ds (L.map (fun k => (⟨k, 0, 0⟩ : Rect))) := by
  induction h with
  | nil => exact .nil
  | @cons s rest k e succ ds L hk _ ih =>
    rw [List.map_append] at ih ⊢
    refine .cons (succ := succ.map (fun k => (k, 0))) ?_ ih
    rw [decs_aux, List.getElem?_map, hk]
    rfl

theorem toH_aux {leaves : Nat} {children : List (List Nat)} {sd : List (Nat × Nat)} {ds : List Nat} {Ld : List Rect}
    (h : Sol (dDecs leaves children 1) sd ds Ld) :
    ∀ st : List Nat, sd = st.map (fun k => (k, 0)) →
      ∃ L, Ld = L.map (fun k => (⟨k, 0, 0⟩ : Rect)) ∧ Sol (hDecs leaves children) st ds L := by
  induction h with
  | nil =>
    intro st e
    obtain rfl : st = [] := by simpa using e.symm
    exact ⟨[], rfl, .nil⟩
  | @cons s rest k e succ ds L hk _ ih =>
    intro st he
    cases st with
    | nil => simp at he
    | cons x st =>
      obtain ⟨rfl, rfl⟩ := List.cons.inj he
      rw [decs_aux, List.getElem?_map, Option.map_eq_some_iff] at hk
      obtain ⟨⟨e', succ'⟩, hk', heq⟩ := hk
      obtain ⟨rfl, rfl⟩ := Prod.mk.inj heq
      obtain ⟨L', rfl, hs⟩ := ih (succ' ++ st) (by rw [List.map_append])
      exact ⟨e' ++ L', by rw [List.map_append], .cons hk' hs⟩

theorem of_aux {K : Type} [Field K] (Q : Nat → Quality K) (L : List Nat) :
    gainOf (rq (fun h _ _ => Q h)) (L.map (fun k => (⟨k, 0, 0⟩ : Rect))) = gainOf Q L ∧
    lossOf (rq (fun h _ _ => Q h)) (L.map (fun k => (⟨k, 0, 0⟩ : Rect))) = lossOf Q L := by
  unfold gainOf lossOf
  simp only [List.map_map]
  exact ⟨rfl, rfl⟩

variable {F K : Type} [Field K] [LinearOrder K] [IsStrictOrderedRing K] [FloatP F K]

/-- Any table of qualities: with one slice, the spatiotemporal partition has the same value as the hierarchical one, refines it, and has at
least its gain; it is the same partition if gain and loss are the same. -/
theorem anyTable (leaves : Nat) (parents : List Int) (md : HMeta) (hmd : RightMeta leaves parents md)
    (hlt : leaves < parents.length) (q : List (UTM (Quality K))) (qh : List (Quality K)) (Q : Nat → Quality K)
    (hq : MRep q parents.length 1 (fun h _ _ => Q h)) (hqh : VRep qh parents.length Q) (p : F) :
    ∃ P Ph, dBestPartition q md p = .ok P ∧ hBestPartition qh md p = .ok Ph ∧
      LeafCover leaves parents (P.parts.map DPart.h) ∧ LeafCover leaves parents (Ph.parts.map HPart.h) ∧
      P.quality = ⟨gainOf Q (P.parts.map DPart.h), lossOf Q (P.parts.map DPart.h)⟩ ∧
      Ph.quality = ⟨gainOf Q (Ph.parts.map HPart.h), lossOf Q (Ph.parts.map HPart.h)⟩ ∧
      FloatP.toK p * P.quality.gain - FloatP.toK (FloatP.oneSub p) * P.quality.loss =
        FloatP.toK p * Ph.quality.gain - FloatP.toK (FloatP.oneSub p) * Ph.quality.loss ∧
      Refines parents (P.parts.map DPart.h) (Ph.parts.map HPart.h) ∧ Ph.quality.gain ≤ P.quality.gain ∧
      (P.quality = Ph.quality → P.parts = Ph.parts.map (fun x => (⟨x.h, x.size, 0, 0, x.quality⟩ : DPart K))) := by
  obtain ⟨P, ds, Ld, a1, a2, a3, _, a5⟩ := dBest_first hmd hq one_pos (by norm_num) p
  obtain ⟨Ph, dh, Lh, b1, b2, b3, _, b5, b6⟩ := hBest_first hmd hlt hqh p
  obtain ⟨L, rfl, hL⟩ := toH_aux a5.mem [md.root] rfl
  have hD := toD_aux b5.mem
  have e1 : P.parts.map DPart.h = L := by
    rw [a2, List.map_map, List.map_map]
    exact List.map_id _
  have e2 : Ph.parts.map HPart.h = Lh := by
    rw [b2, List.map_map]
    exact List.map_id _
  rw [(of_aux Q L).1, (of_aux Q L).2] at a3
  have hval : valueOf (wGain p) (wLoss p) Q L = valueOf (wGain p) (wLoss p) Q Lh := by
    apply le_antisymm (b5.best _ _ hL)
    have := (a5.best _ _ hD).value
    unfold valueOf at this ⊢
    rwa [(of_aux Q L).1, (of_aux Q L).2, (of_aux Q Lh).1, (of_aux Q Lh).2] at this
  refine ⟨P, Ph, a1, b1, ?_⟩
  rw [e1, e2]
  refine ⟨hSol_leafCover hmd hL, hSol_leafCover hmd b5.mem, a3, b3, ?_, b6 _ _ hL hval, ?_, fun he => ?_⟩
  · rw [a3, b3]
    exact hval
  · rw [a3, b3]
    rcases a5.best _ _ hD with h | ⟨_, h | ⟨h, _⟩⟩
    · unfold valueOf at h hval
      rw [(of_aux Q L).1, (of_aux Q L).2, (of_aux Q Lh).1, (of_aux Q Lh).2, hval] at h
      exact absurd h (lt_irrefl _)
    · rw [(of_aux Q L).1, (of_aux Q Lh).1] at h
      exact h.le
    · rw [(of_aux Q L).1, (of_aux Q Lh).1] at h
      exact h.le
  · rw [a3, b3] at he
    obtain ⟨hg, hl⟩ := Quality.mk.inj he
    have h1 := a5.first _ _ hD (by rw [(of_aux Q L).1, (of_aux Q Lh).1, hg]) (by rw [(of_aux Q L).2, (of_aux Q Lh).2, hl])
    have h2 := b5.first _ _ hL hval
    have hds : ds = dh := by
      rcases h1 with h1 | h1
      · exact h1
      · rcases h2 with h2 | h2
        · exact h2.symm
        · exact absurd h2 h1.asymm
    subst hds
    rw [hL.unique b5.mem] at a2
    rw [a2, b2, List.map_map, List.map_map]
    rfl

/-- If merging parts does not lower gain or loss, the partitions are the same for every `p` with `1 - p ≠ 0`. -/
theorem table (leaves : Nat) (parents : List Int) (md : HMeta) (hmd : RightMeta leaves parents md)
    (hlt : leaves < parents.length) (q : List (UTM (Quality K))) (qh : List (Quality K)) (Q : Nat → Quality K)
    (hq : MRep q parents.length 1 (fun h _ _ => Q h)) (hqh : VRep qh parents.length Q) (hQ : C75.MergeGrows leaves parents Q)
    (p : F) (hp : (FloatP.toK (FloatP.oneSub p) : K) ≠ 0) :
    ∃ P Ph, dBestPartition q md p = .ok P ∧ hBestPartition qh md p = .ok Ph ∧
      P.parts = Ph.parts.map (fun x => (⟨x.h, x.size, 0, 0, x.quality⟩ : DPart K)) ∧ P.quality = Ph.quality := by
  obtain ⟨P, Ph, h1, h2, c1, c2, h3, h4, hv, hr, hg, h⟩ := anyTable leaves parents md hmd hlt q qh Q hq hqh p
  have hge := (hQ _ _ c1 c2 hr).1
  have e1 : P.quality.gain = Ph.quality.gain := by
    apply le_antisymm _ hg
    rw [h3, h4]
    exact hge
  have e2 : P.quality.loss = Ph.quality.loss := by
    rw [e1] at hv
    exact mul_left_cancel₀ hp (by linarith)
  have e : P.quality = Ph.quality := by
    cases hq : P.quality
    cases hq' : Ph.quality
    rw [hq, hq'] at e1 e2
    simp_all
  exact ⟨P, Ph, h1, h2, h e, e⟩

/-! ## Data -/

/-- The qualities of one slice: those of the hierarchy. -/
theorem objects_aux (leaves : Nat) (parents : List Int) (v : DValues ℝ) (hmd : RightMeta leaves parents v.md) (hlt : leaves < parents.length)
    (m : Nat) (V : Nat → Nat × Nat → ℝ) (hv : DData v m leaves 1 V) (hb : leaves < 2147483648)
    (h0 : ∀ k h, k < m → h < leaves → 0 ≤ V k (h, 0))
    (w : HValues ℝ) (hwmd : RightMeta leaves parents w.md) (hw : HData w m leaves (fun k h => V k (h, 0))) :
    ∃ q qh, (DQualities.ofValues v).computeQualities = .ok ⟨some v, some q, v.md⟩ ∧
      (HQualities.ofValues w).computeQualities = .ok ⟨some w, some qh, w.md⟩ ∧
      MRep q parents.length 1 (fun h _ _ => entQ m (fun k h => V k (h, 0)) (leavesUnder leaves parents h)) ∧
      VRep qh parents.length (fun h => entQ m (fun k h => V k (h, 0)) (leavesUnder leaves parents h)) := by
  obtain ⟨q, e, hq⟩ := dq_objectAny hmd hlt (by norm_num) (by omega) hv
  obtain ⟨qh, eh, hqh⟩ := hq_object hwmd hlt hw h0
  obtain ⟨qa, ea, hqa⟩ := hq_objectAny hwmd hlt hw
  rw [eh] at ea
  obtain rfl : qh = qa := by
    have := Except.ok.inj ea
    simpa using this
  refine ⟨q, qh, e, eh, hq.congr (fun h i j hh hij hj => ?_), hqh⟩
  obtain rfl : j = 0 := by omega
  obtain rfl : i = 0 := by omega
  have h1 := hqh.cell h hh
  rw [hqa.cell h hh] at h1
  rw [← Option.some.inj h1]
  unfold anyQ dCells
  rw [C47.slice_aux]
  simp only [(C47.any_aux _ _ _).1, (C47.any_aux _ _ _).2]
  rfl

/-- Data of one slice that are not negative, and a parameter below 1. -/
theorem data (leaves : Nat) (parents : List Int) (v : DValues ℝ) (hmd : RightMeta leaves parents v.md) (hlt : leaves < parents.length)
    (m : Nat) (V : Nat → Nat × Nat → ℝ) (hv : DData v m leaves 1 V) (hb : leaves < 2147483648)
    (h0 : ∀ k h, k < m → h < leaves → 0 ≤ V k (h, 0))
    (w : HValues ℝ) (hmdw : w.md = v.md) (hw : HData w m leaves (fun k h => V k (h, 0))) :
    ∃ q qh, (DQualities.ofValues v).computeQualities = .ok ⟨some v, some q, v.md⟩ ∧
      (HQualities.ofValues w).computeQualities = .ok ⟨some w, some qh, v.md⟩ ∧
      ∀ {F : Type} [FloatP F ℝ] (p : F), (FloatP.toK (FloatP.oneSub p) : ℝ) ≠ 0 →
        ∃ P Ph, dBestPartition q v.md p = .ok P ∧ hBestPartition qh v.md p = .ok Ph ∧
          P.parts = Ph.parts.map (fun x => (⟨x.h, x.size, 0, 0, x.quality⟩ : DPart ℝ)) ∧ P.quality = Ph.quality := by
  obtain ⟨q, qh, e, eh, hq, hqh⟩ := objects_aux leaves parents v hmd hlt m V hv hb h0 w (hmdw ▸ hmd) hw
  rw [hmdw] at eh
  exact ⟨q, qh, e, eh, fun p hp => table leaves parents v.md hmd hlt q qh _ hq hqh
    (C75.grows_aux leaves parents v.md.root hmd.tree m _ h0) p hp⟩

/-- The same after normalize(), when the root has the highest number. -/
theorem dataNormalized (leaves : Nat) (parents : List Int) (v : DValues ℝ) (hmd : RightMeta leaves parents v.md) (hlt : leaves < parents.length)
    (hroot : v.md.root = parents.length - 1)
    (m : Nat) (V : Nat → Nat × Nat → ℝ) (hv : DData v m leaves 1 V) (hb : leaves < 2147483648)
    (h0 : ∀ k h, k < m → h < leaves → 0 ≤ V k (h, 0))
    (w : HValues ℝ) (hmdw : w.md = v.md) (hw : HData w m leaves (fun k h => V k (h, 0)))
    (_hg : gainSeries m (Finset.range leaves) (fun k h => V k (h, 0)) ≠ 0)
    (_hl : lossSeries m (Finset.range leaves) (fun k h => V k (h, 0)) ≠ 0) :
    ∃ q qh, ((DQualities.ofValues v).computeQualities >>= DQualities.normalize) = .ok ⟨some v, some q, v.md⟩ ∧
      ((HQualities.ofValues w).computeQualities >>= HQualities.normalize) = .ok ⟨some w, some qh, v.md⟩ ∧
      ∀ {F : Type} [FloatP F ℝ] (p : F), (FloatP.toK (FloatP.oneSub p) : ℝ) ≠ 0 →
        ∃ P Ph, dBestPartition q v.md p = .ok P ∧ hBestPartition qh v.md p = .ok Ph ∧
          P.parts = Ph.parts.map (fun x => (⟨x.h, x.size, 0, 0, x.quality⟩ : DPart ℝ)) ∧ P.quality = Ph.quality := by
  obtain ⟨q0, qh0, e0, eh0, hq0, hqh0⟩ := objects_aux leaves parents v hmd hlt m V hv hb h0 w (hmdw ▸ hmd) hw
  rw [hmdw] at eh0
  obtain ⟨q, e1, hq1⟩ := dqNormalize_spec (md := v.md) hq0 hmd.tree.rootLt hmd.hsize one_pos (by norm_num)
  obtain ⟨qh, e2, hqh1⟩ := hqNormalize_spec hqh0 hmd.tree.rootLt
  refine ⟨q, qh, by rw [e0]; exact dNormalize_object hv.osize one_pos e1, by rw [eh0]; exact hNormalize_object e2, fun p hp => ?_⟩
  exact table leaves parents v.md hmd hlt q qh
    (fun h => (entQ m (fun k h => V k (h, 0)) (leavesUnder leaves parents h)).div
      (entQ m (fun k h => V k (h, 0)) (leavesUnder leaves parents v.md.root)))
    (hq1.congr fun x i j hx _ _ => by unfold nDiv; rw [if_neg (by omega)])
    (hqh1.congr fun x hx => by unfold nDiv; rw [if_neg (by omega)])
    (C75.normGrows_aux leaves parents v.md.root hmd.tree m _ h0) p hp

/-! ## Concrete cases -/

/-- Two series of values on the leaves of the tree of `Sample`, in one slice. -/
noncomputable def dOne : DValues ℝ := (⟨2, 1, Sample.md, table3 4 2 1 (fun x => Sample.val x.2.1 x.1)⟩ : DValuesN3 ℝ).toDValues

theorem dOne_data_aux : DData dOne 2 4 1 (fun k x => Sample.val k x.1) :=
  (⟨rfl, rfl, rfl, rfl⟩ : (⟨2, 1, Sample.md, table3 4 2 1 (fun x => Sample.val x.2.1 x.1)⟩ : DValuesN3 ℝ).Holds 4 2 1 Sample.md
    (fun x => Sample.val x.2.1 x.1)).data

example := data 4 Sample.tree dOne Sample.right (by decide) 2 (fun k x => Sample.val k x.1) dOne_data_aux (by norm_num)
  (fun k h _ _ => (Sample.val_pos k h).le) Sample.hV rfl Sample.h

example := dataNormalized 4 Sample.tree dOne Sample.right (by decide) Sample.root 2 (fun k x => Sample.val k x.1) dOne_data_aux (by norm_num)
  (fun k h _ _ => (Sample.val_pos k h).le) Sample.hV rfl Sample.h Sample.h_whole.1 Sample.h_whole.2

/-- `1 - p ≠ 0` for `p = 3/4`. -/
example : (FloatP.toK (FloatP.oneSub (3 / 4 : ℝ)) : ℝ) ≠ 0 := by norm_num [FloatP.toK, FloatP.oneSub]

example := anyTable (F := ℚ) 4 Sample.tree Sample.md Sample.right (by decide) _ _ _ Sample.sliceRep Sample.hRep 1

/-- Two leaves with the values 1 and 0: merging them gains nothing and loses 1 bit. -/
def one0 (h : Nat) : Quality ℚ := if h = 2 then ⟨0, 1⟩ else ⟨0, 0⟩

/-- The qualities of that data. -/
example : (entQ 1 (fun _ h => if h = 0 then 1 else 0) {0, 1} : Quality ℝ) = ⟨0, 1⟩ ∧
    ∀ h : Nat, h = 0 ∨ h = 1 → (entQ 1 (fun _ h => if h = 0 then 1 else 0) {h} : Quality ℝ) = ⟨0, 0⟩ := by
  constructor
  · simp [entQ, gainSeries, lossSeries, gainOver, lossOver, xlog2]
  · rintro h (rfl | rfl) <;> simp [entQ, gainSeries, lossSeries, gainOver, lossOver, xlog2]

/-- At `p = 1` the hierarchical partitioner merges them and the spatiotemporal one does not; at `p = 1/2` neither does. -/
example : ([1, 1 / 2].map (fun p : ℚ => (do
      let md ← mkMeta 2 [2, 2, -1]
      let P ← dBestPartition ((List.range 3).map (fun h => (⟨1, [one0 h]⟩ : UTM (Quality ℚ)))) md p
      let Ph ← hBestPartition ((List.range 3).map one0) md p
      return (P.parts.map DPart.h, Ph.parts.map HPart.h) : Res (List Nat × List Nat)))) =
    [.ok ([0, 1], [2]), .ok ([0, 1], [0, 1])] := by
  decide +kernel

end Lp.C103
