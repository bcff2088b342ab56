import Verif.Proofs.Scale
import Verif.Proofs.SearchShift
import Verif.Props.C05
import Verif.Props.C06
import Verif.Props.C07
import Verif.Proofs.Samples

/-!
# C14 — multiplying the data by `c > 0` multiplies every gain and loss by `c` and keeps every best partition

`v` and `v'` are two containers, the values of `v'` being `c` times those of `v`; `p` is any parameter, with any rounding
of the weights `p` and `1-p`.
-/

namespace Lp.C14
open Spec
variable {F : Type} [FloatP F ℝ]

/-- Ordered data. -/
theorem ordered (v v' : OValues ℝ) (m n : Nat) (V : Nat → Nat → ℝ) (c : ℝ) (hc : 0 < c) (hv : OData v m n V)
    (hv' : OData v' m n (fun k i => c * V k i)) (hn : n ≤ 65535) (h0 : ∀ k i, k < m → i < n → 0 ≤ V k i) :
    ∃ q q' : UTM (Quality ℝ),
      (OQualities.ofValues v).computeQualities = .ok ⟨some v, some q⟩ ∧
      (OQualities.ofValues v').computeQualities = .ok ⟨some v', some q'⟩ ∧
      (∀ i j, i ≤ j → j < n → ∃ g l, q.get i j = .ok ⟨g, l⟩ ∧ q'.get i j = .ok ⟨c * g, c * l⟩) ∧
      ∀ p : F, ∃ P P', oBestPartition q p = .ok P ∧ oBestPartition q' p = .ok P' ∧
        P'.parts.map (fun x => (x.start, x.end)) = P.parts.map (fun x => (x.start, x.end)) ∧
        P'.quality = ⟨c * P.quality.gain, c * P.quality.loss⟩ := by
  obtain ⟨q, e, hq⟩ := oq_object hv hn h0
  obtain ⟨q', e', hq'⟩ := oq_object hv' hn (fun k i hk hi => mul_nonneg hc.le (h0 k i hk hi))
  simp only [entQ_mul hc] at hq'
  refine ⟨q, q', e, e', fun i j hij hj => ⟨_, _, hq.get hij hj, hq'.get hij hj⟩, fun p => ?_⟩
  obtain ⟨P, P', h1, h2, h3, h4⟩ := oBest_scale hc hq hq' p
  exact ⟨P, P', h1, h2, by rw [h3, List.map_map]; rfl, h4⟩

/-- Hierarchical data (over the same hierarchy). -/
theorem hierarchical (leaves : Nat) (parents : List Int) (v v' : HValues ℝ) (hmd : RightMeta leaves parents v.md)
    (hmd' : v'.md = v.md) (hlt : leaves < parents.length) (m : Nat) (V : Nat → Nat → ℝ) (c : ℝ) (hc : 0 < c)
    (hv : HData v m leaves V) (hv' : HData v' m leaves (fun k h => c * V k h))
    (h0 : ∀ k h, k < m → h < leaves → 0 ≤ V k h) :
    ∃ q q' : List (Quality ℝ),
      (HQualities.ofValues v).computeQualities = .ok ⟨some v, some q, v.md⟩ ∧
      (HQualities.ofValues v').computeQualities = .ok ⟨some v', some q', v.md⟩ ∧
      (∀ h, h < parents.length → ∃ g l, q[h]? = some ⟨g, l⟩ ∧ q'[h]? = some ⟨c * g, c * l⟩) ∧
      ∀ p : F, ∃ P P', hBestPartition q v.md p = .ok P ∧ hBestPartition q' v.md p = .ok P' ∧
        P'.parts.map (fun x => (x.h, x.size)) = P.parts.map (fun x => (x.h, x.size)) ∧
        P'.quality = ⟨c * P.quality.gain, c * P.quality.loss⟩ := by
  obtain ⟨q, e, hq⟩ := hq_object hmd hlt hv h0
  obtain ⟨q', e', hq'⟩ := hq_object (by rw [hmd']; exact hmd) hlt hv' (fun k h hk hh => mul_nonneg hc.le (h0 k h hk hh))
  simp only [entQ_mul hc] at hq'
  rw [hmd'] at e'
  refine ⟨q, q', e, e', fun h hh => ⟨_, _, hq.cell h hh, hq'.cell h hh⟩, fun p => ?_⟩
  obtain ⟨P, P', h1, h2, h3, h4⟩ := hBest_scale hmd hlt hc hq hq' p
  exact ⟨P, P', h1, h2, by rw [h3, List.map_map]; rfl, h4⟩

/-- Spatiotemporal data (over the same hierarchy). -/
theorem spatiotemporal (leaves : Nat) (parents : List Int) (v v' : DValues ℝ) (hmd : RightMeta leaves parents v.md)
    (hmd' : v'.md = v.md) (hlt : leaves < parents.length) (m n : Nat) (hn0 : 0 < n) (hn : n ≤ 65535)
    (hb : leaves * n < 2147483648) (V : Nat → Nat × Nat → ℝ) (c : ℝ) (hc : 0 < c) (hv : DData v m leaves n V)
    (hv' : DData v' m leaves n (fun k x => c * V k x))
    (h0 : ∀ k h x, k < m → h < leaves → x < n → 0 ≤ V k (h, x)) :
    ∃ q q' : List (UTM (Quality ℝ)),
      (DQualities.ofValues v).computeQualities = .ok ⟨some v, some q, v.md⟩ ∧
      (DQualities.ofValues v').computeQualities = .ok ⟨some v', some q', v.md⟩ ∧
      (∀ h i j, h < parents.length → i ≤ j → j < n →
        ∃ g l, mget q h i j = .ok ⟨g, l⟩ ∧ mget q' h i j = .ok ⟨c * g, c * l⟩) ∧
      ∀ p : F, ∃ P P', dBestPartition q v.md p = .ok P ∧ dBestPartition q' v.md p = .ok P' ∧
        P'.parts.map (fun x => (x.h, x.hsize, x.start, x.end)) = P.parts.map (fun x => (x.h, x.hsize, x.start, x.end)) ∧
        P'.quality = ⟨c * P.quality.gain, c * P.quality.loss⟩ := by
  obtain ⟨q, e, hq⟩ := dq_object hmd hlt hn hb hv h0
  obtain ⟨q', e', hq'⟩ := dq_object (by rw [hmd']; exact hmd) hlt hn hb hv'
    (fun k h x hk hh hx => mul_nonneg hc.le (h0 k h x hk hh hx))
  simp only [entQ_mul hc] at hq'
  rw [hmd'] at e'
  refine ⟨q, q', e, e', fun h i j hh hij hj => ⟨_, _, hq.get hh hij hj, hq'.get hh hij hj⟩, fun p => ?_⟩
  obtain ⟨P, P', h1, h2, h3, h4⟩ := dBest_scale hmd hn0 hn hc hq hq' p
  exact ⟨P, P', h1, h2, by rw [h3, List.map_map]; rfl, h4⟩

/-- Two searches end in the same fault, or find the same parameters, the qualities for them being multiplied by `c`. -/
def SameSearch {P P' T T' : Type} (c : ℝ) (a : Res (PState F ℝ P T)) (b : Res (PState F ℝ P' T')) : Prop :=
  (∀ e, a = .error e ↔ b = .error e) ∧
  ∀ x y, a = .ok x → b = .ok y → y.pList = x.pList ∧
    y.qualityList = x.qualityList.map (fun e => (e.1, ⟨c * e.2.gain, c * e.2.loss⟩))

theorem sameSearch_aux {P P' T T' : Type} {c : ℝ} {a : Res (PState F ℝ P T)} {b : Res (PState F ℝ P' T')}
    (h : RelRes (fun x y => y.pList = x.pList ∧
      y.qualityList = x.qualityList.map (fun e => (e.1, (⟨c * e.2.gain, c * e.2.loss⟩ : Quality ℝ)))) a b) : SameSearch c a b := by
  cases a <;> cases b <;> simp only [RelRes] at h
  · subst h
    exact ⟨fun e => by simp, fun x y hx => by cases hx⟩
  · refine ⟨fun e => by simp, fun x y hx hy => ?_⟩
    cases hx; cases hy
    exact h

theorem times_aux {c : ℝ} (hc : 0 < c) : Function.Injective (fun q : Quality ℝ => (⟨c * q.gain, c * q.loss⟩ : Quality ℝ)) := by
  intro a b h
  obtain ⟨g, l⟩ := a
  obtain ⟨g', l'⟩ := b
  simp only [Quality.mk.injEq] at h ⊢
  exact ⟨mul_left_cancel₀ hc.ne' h.1, mul_left_cancel₀ hc.ne' h.2⟩

/-- The searches on ordered data find the same parameters. -/
theorem orderedSearch {u : ℝ} (fl : FloatLaws F ℝ u) (v v' : OValues ℝ) (m n : Nat) (V : Nat → Nat → ℝ) (c : ℝ) (hc : 0 < c)
    (hv : OData v m n V) (hv' : OData v' m n (fun k i => c * V k i)) (hn : n ≤ 65535)
    (h0 : ∀ k i, k < m → i < n → 0 ≤ V k i) :
    ∃ q q' : UTM (Quality ℝ),
      (OQualities.ofValues v).computeQualities = .ok ⟨some v, some q⟩ ∧
      (OQualities.ofValues v').computeQualities = .ok ⟨some v', some q'⟩ ∧
      ∀ (strict : Bool) (fuel : Nat) (t lo hi : F), (0 : ℝ) ≤ FloatP.toK lo → (FloatP.toK lo : ℝ) ≤ FloatP.toK hi →
        (FloatP.toK hi : ℝ) ≤ 1 → ∀ st st',
        SameSearch c (computeBestPartitions (oOps q) strict fuel t lo hi st)
          (computeBestPartitions (oOps q') strict fuel t lo hi st') := by
  obtain ⟨q, e, hq⟩ := oq_object hv hn h0
  obtain ⟨q', e', hq'⟩ := oq_object hv' hn (fun k i hk hi => mul_nonneg hc.le (h0 k i hk hi))
  simp only [entQ_mul hc] at hq'
  refine ⟨q, q', e, e', fun strict fuel t lo hi hlo hl hhi st st' => sameSearch_aux ?_⟩
  refine search_corr fl (.ordered q n _ hq) (.ordered q' n _ hq') _ (times_aux hc) ?_ strict fuel t lo hi hlo hl hhi st st'
  intro p _ _ X X' eX eX'
  obtain ⟨P, P', h1, h2, _, h4⟩ := oBest_scale hc hq hq' p
  obtain rfl := C24.res_aux eX h1
  obtain rfl := C24.res_aux eX' h2
  exact h4

/-- The searches on hierarchical data. -/
theorem hierarchicalSearch {u : ℝ} (fl : FloatLaws F ℝ u) (leaves : Nat) (parents : List Int) (v v' : HValues ℝ)
    (hmd : RightMeta leaves parents v.md) (hmd' : v'.md = v.md) (hlt : leaves < parents.length) (m : Nat) (V : Nat → Nat → ℝ)
    (c : ℝ) (hc : 0 < c) (hv : HData v m leaves V) (hv' : HData v' m leaves (fun k h => c * V k h))
    (h0 : ∀ k h, k < m → h < leaves → 0 ≤ V k h) :
    ∃ q q' : List (Quality ℝ),
      (HQualities.ofValues v).computeQualities = .ok ⟨some v, some q, v.md⟩ ∧
      (HQualities.ofValues v').computeQualities = .ok ⟨some v', some q', v.md⟩ ∧
      ∀ (strict : Bool) (fuel : Nat) (t lo hi : F), (0 : ℝ) ≤ FloatP.toK lo → (FloatP.toK lo : ℝ) ≤ FloatP.toK hi →
        (FloatP.toK hi : ℝ) ≤ 1 → ∀ st st',
        SameSearch c (computeBestPartitions (hOps q v.md) strict fuel t lo hi st)
          (computeBestPartitions (hOps q' v.md) strict fuel t lo hi st') := by
  obtain ⟨q, e, hq⟩ := hq_object hmd hlt hv h0
  obtain ⟨q', e', hq'⟩ := hq_object (by rw [hmd']; exact hmd) hlt hv' (fun k h hk hh => mul_nonneg hc.le (h0 k h hk hh))
  simp only [entQ_mul hc] at hq'
  rw [hmd'] at e'
  refine ⟨q, q', e, e', fun strict fuel t lo hi hlo hl hhi st st' => sameSearch_aux ?_⟩
  refine search_corr fl (.hierarchical leaves parents v.md q _ hmd hlt hq) (.hierarchical leaves parents v.md q' _ hmd hlt hq') _
    (times_aux hc) ?_ strict fuel t lo hi hlo hl hhi st st'
  intro p _ _ X X' eX eX'
  obtain ⟨P, P', h1, h2, _, h4⟩ := hBest_scale hmd hlt hc hq hq' p
  obtain rfl := C24.res_aux eX h1
  obtain rfl := C24.res_aux eX' h2
  exact h4

/-- The searches on spatiotemporal data. -/
theorem spatiotemporalSearch {u : ℝ} (fl : FloatLaws F ℝ u) (leaves : Nat) (parents : List Int) (v v' : DValues ℝ)
    (hmd : RightMeta leaves parents v.md) (hmd' : v'.md = v.md) (hlt : leaves < parents.length) (m n : Nat) (hn0 : 0 < n)
    (hn : n ≤ 65535) (hb : leaves * n < 2147483648) (V : Nat → Nat × Nat → ℝ) (c : ℝ) (hc : 0 < c) (hv : DData v m leaves n V)
    (hv' : DData v' m leaves n (fun k x => c * V k x)) (h0 : ∀ k h x, k < m → h < leaves → x < n → 0 ≤ V k (h, x)) :
    ∃ q q' : List (UTM (Quality ℝ)),
      (DQualities.ofValues v).computeQualities = .ok ⟨some v, some q, v.md⟩ ∧
      (DQualities.ofValues v').computeQualities = .ok ⟨some v', some q', v.md⟩ ∧
      ∀ (strict : Bool) (fuel : Nat) (t lo hi : F), (0 : ℝ) ≤ FloatP.toK lo → (FloatP.toK lo : ℝ) ≤ FloatP.toK hi →
        (FloatP.toK hi : ℝ) ≤ 1 → ∀ st st',
        SameSearch c (computeBestPartitions (dOps q v.md) strict fuel t lo hi st)
          (computeBestPartitions (dOps q' v.md) strict fuel t lo hi st') := by
  obtain ⟨q, e, hq⟩ := dq_object hmd hlt hn hb hv h0
  obtain ⟨q', e', hq'⟩ := dq_object (by rw [hmd']; exact hmd) hlt hn hb hv'
    (fun k h x hk hh hx => mul_nonneg hc.le (h0 k h x hk hh hx))
  simp only [entQ_mul hc] at hq'
  rw [hmd'] at e'
  refine ⟨q, q', e, e', fun strict fuel t lo hi hlo hl hhi st st' => sameSearch_aux ?_⟩
  refine search_corr fl (.spatiotemporal leaves parents v.md n q _ hmd hn0 hn hq)
    (.spatiotemporal leaves parents v.md n q' _ hmd hn0 hn hq') _ (times_aux hc) ?_ strict fuel t lo hi hlo hl hhi st st'
  intro p _ _ X X' eX eX'
  obtain ⟨P, P', h1, h2, _, h4⟩ := dBest_scale hmd hn0 hn hc hq hq' p
  obtain rfl := C24.res_aux eX h1
  obtain rfl := C24.res_aux eX' h2
  exact h4

/-- The hypotheses are met by the values 1, 0, 2 and their triples. -/
example (p : ℝ) : ∃ w w' q q' P P',
    (OQualities.ofValues (OValuesN1.ofVec ([1, 0, 2] : List ℝ)).toOValues).computeQualities = .ok ⟨w, some q⟩ ∧
    (OQualities.ofValues (OValuesN1.ofVec ([3 * 1, 3 * 0, 3 * 2] : List ℝ)).toOValues).computeQualities = .ok ⟨w', some q'⟩ ∧
    oBestPartition (F := ℝ) q p = .ok P ∧ oBestPartition (F := ℝ) q' p = .ok P' ∧
    P'.parts.map (fun x => (x.start, x.end)) = P.parts.map (fun x => (x.start, x.end)) := by
  let f : Nat → ℝ := fun i => ([1, 0, 2] : List ℝ).getD i 0
  have hd : OData (OValuesN1.ofVec ([1, 0, 2] : List ℝ)).toOValues 1 3 (fun _ => f) := (OValuesN1.ofVec_holds (O := 3) f).data
  have hd' : OData (OValuesN1.ofVec ([3 * 1, 3 * 0, 3 * 2] : List ℝ)).toOValues 1 3 (fun _ i => 3 * f i) :=
    (OValuesN1.ofVec_holds (O := 3) (fun i => 3 * f i)).data
  obtain ⟨q, q', h1, h2, _, h3⟩ := ordered (F := ℝ) _ _ 1 3 _ 3 (by norm_num) hd hd' (by norm_num) (by
    intro k i _ hi
    match i, hi with
    | 0, _ => simp [f]
    | 1, _ => simp [f]
    | 2, _ => simp [f])
  obtain ⟨P, P', e1, e2, e3, _⟩ := h3 p
  exact ⟨_, _, q, q', P, P', h1, h2, e1, e2, e3⟩

/-! ## The hypotheses are met by concrete inputs (`Proofs/Samples.lean`) -/

example := hierarchical (F := ℝ) 4 Sample.tree Sample.hV (Sample.hOf fun k h => 3 * Sample.val k h) Sample.right rfl (by decide) 2 _ 3 (by norm_num) Sample.h (Sample.hData _) Sample.h_nonneg
example := spatiotemporal (F := ℝ) 4 Sample.tree Sample.dV (Sample.dOf fun k x => 3 * Sample.dVal k x) Sample.right rfl (by decide) 2 3 (by decide) (by decide) (by decide) _ 3 (by norm_num)
  Sample.d (Sample.dData _) Sample.d_nonneg
example := orderedSearch (exactLaws ℝ) Sample.oV (Sample.oOf fun k i => 3 * Sample.val k i) 2 3 _ 3 (by norm_num) Sample.o (Sample.oData _) (by decide) Sample.o_nonneg
example := hierarchicalSearch (exactLaws ℝ) 4 Sample.tree Sample.hV (Sample.hOf fun k h => 3 * Sample.val k h) Sample.right rfl (by decide) 2 _ 3 (by norm_num) Sample.h (Sample.hData _)
  Sample.h_nonneg
example := spatiotemporalSearch (exactLaws ℝ) 4 Sample.tree Sample.dV (Sample.dOf fun k x => 3 * Sample.dVal k x) Sample.right rfl (by decide) 2 3 (by decide) (by decide) (by decide) _ 3
  (by norm_num) Sample.d (Sample.dData _) Sample.d_nonneg

end Lp.C14
