import Verif.Spec.Series
import Verif.Proofs.Ent

/-!
# Qualities do not depend on the order of the series nor on all-zero series
-/

namespace Lp
open Spec
open scoped BigOperators
variable {ι : Type} {m m' : Nat} {V V' : Nat → ι → ℝ} {dom : ι → Prop}

theorem SameSeries.sum (h : SameSeries dom m V m' V') (w : (ι → ℝ) → ℝ) {s : Finset ι} (hs : ∀ x ∈ s, dom x)
    (hw : ∀ f g : ι → ℝ, (∀ x ∈ s, f x = g x) → w f = w g) (hz : w (fun _ => 0) = 0) :
    ∑ k ∈ Finset.range m', w (V' k) = ∑ k ∈ Finset.range m, w (V k) := by
  classical
  obtain ⟨σ, h1, h2, h3, h4⟩ := h
  have e : ∑ k ∈ Finset.range m, w (V k) = ∑ k ∈ (Finset.range m).image σ, w (V' k) := by
    rw [Finset.sum_image]
    · exact Finset.sum_congr rfl (fun k hk => hw _ _ (fun x hx => (h3 k x (Finset.mem_range.mp hk) (hs x hx)).symm))
    · intro a ha b hb hab
      exact h2 a b (by simpa using ha) (by simpa using hb) hab
  rw [e]
  symm
  apply Finset.sum_subset
  · intro k hk
    obtain ⟨l, hl, rfl⟩ := Finset.mem_image.mp hk
    exact Finset.mem_range.mpr (h1 l (Finset.mem_range.mp hl))
  · intro k hk hn
    rw [← hz]
    refine hw _ _ (fun x hx => h4 k x (Finset.mem_range.mp hk) (fun l hl he => hn ?_) (hs x hx))
    exact Finset.mem_image.mpr ⟨l, Finset.mem_range.mpr hl, he⟩

theorem gainAny_congr {s : Finset ι} {f g : ι → ℝ} (h : ∀ x ∈ s, f x = g x) : gainAny s f = gainAny s g := by
  unfold gainAny
  rw [Finset.sum_congr rfl h, Finset.sum_congr rfl (fun x hx => congrArg glog2 (h x hx))]

theorem lossAny_congr {s : Finset ι} {f g : ι → ℝ} (h : ∀ x ∈ s, f x = g x) : lossAny s f = lossAny s g := by
  unfold lossAny
  rw [Finset.sum_congr rfl h, gainAny_congr h]

theorem gainAny_zero (s : Finset ι) : gainAny s (fun _ => 0) = 0 := by unfold gainAny; simp
theorem lossAny_zero (s : Finset ι) : lossAny s (fun _ => 0) = 0 := by unfold lossAny; rw [gainAny_zero]; simp

/-- The entry of the table for data of any sign. -/
noncomputable def anyQ (m : Nat) (V : Nat → ι → ℝ) (s : Finset ι) : Quality ℝ :=
  ⟨∑ k ∈ Finset.range m, gainAny s (V k), ∑ k ∈ Finset.range m, lossAny s (V k)⟩

theorem SameSeries.anyQ (h : SameSeries dom m V m' V') {s : Finset ι} (hs : ∀ x ∈ s, dom x) :
    anyQ m' V' s = anyQ m V s := by
  unfold Lp.anyQ
  rw [SameSeries.sum h (gainAny s) hs (fun _ _ => gainAny_congr) (gainAny_zero s),
    SameSeries.sum h (lossAny s) hs (fun _ _ => lossAny_congr) (lossAny_zero s)]

end Lp

namespace Lp
open Spec
variable {leaves n m : Nat} {parents : List Int} {md : HMeta}

theorem oq_objectAny {v : OValues ℝ} {V : Nat → Nat → ℝ} (hv : OData v m n V) (hn : n ≤ 65535) :
    ∃ q, (OQualities.ofValues v).computeQualities = .ok ⟨some v, some q⟩ ∧ q.Rep n (fun i j => anyQ m V (oCells (i, j))) := by
  obtain ⟨q, e, h⟩ := oqCompute_spec hv hn
  refine ⟨q, ?_, h.congr (fun i j hij hj => ?_)⟩
  · unfold OQualities.computeQualities OQualities.ofValues
    simp only [e, okBind, pureOk]
  · unfold oCell
    rw [qSeries_any (card_Icc i j hij)]; rfl

theorem hq_objectAny {v : HValues ℝ} (hmd : RightMeta leaves parents v.md) (hlt : leaves < parents.length)
    {V : Nat → Nat → ℝ} (hv : HData v m leaves V) :
    ∃ q, (HQualities.ofValues v).computeQualities = .ok ⟨some v, some q, v.md⟩ ∧
      VRep q parents.length (fun h => anyQ m V (leavesUnder leaves parents h)) := by
  obtain ⟨q, e, h⟩ := hqCompute_spec hmd hv hlt
  refine ⟨q, ?_, h.congr (fun x hx => ?_)⟩
  · unfold HQualities.computeQualities HQualities.ofValues
    simp only [e, okBind, pureOk]
  · unfold hCell leafSum
    rw [qSeries_any rfl]; rfl

theorem dq_objectAny {v : DValues ℝ} (hmd : RightMeta leaves parents v.md) (hlt : leaves < parents.length)
    (hn : n ≤ 65535) (hb : leaves * n < 2147483648) {V : Nat → Nat × Nat → ℝ} (hv : DData v m leaves n V) :
    ∃ q, (DQualities.ofValues v).computeQualities = .ok ⟨some v, some q, v.md⟩ ∧
      MRep q parents.length n (fun h i j => anyQ m V (dCells leaves parents ⟨h, i, j⟩)) := by
  obtain ⟨q, e, h⟩ := dqCompute_spec hmd hlt hv hn hb
  refine ⟨q, ?_, h.congr (fun x i j hx hij hj => ?_)⟩
  · unfold DQualities.computeQualities DQualities.ofValues
    simp only [e, okBind, pureOk]
  · unfold dCell
    simp only [leafSum_W]
    rw [qSeries_any]
    · rfl
    rw [Finset.card_product, card_Icc i j hij]
    push_cast
    ring

/-- Moving the positions and their values does not change the quality. -/
theorem anyQ_image {ι : Type} [DecidableEq ι] {m : Nat} {V V' : Nat → ι → ℝ} {s : Finset ι} {g : ι → ι} (hg : Set.InjOn g (s : Set ι))
    (h : ∀ k x, k < m → x ∈ s → V' k (g x) = V k x) : anyQ m V' (s.image g) = anyQ m V s := by
  have e : ∀ (f f' : ι → ℝ), (∀ x ∈ s, f' (g x) = f x) → ∑ x ∈ s.image g, f' x = ∑ x ∈ s, f x := by
    intro f f' hf
    rw [Finset.sum_image hg]
    exact Finset.sum_congr rfl hf
  have hc := Finset.card_image_of_injOn hg
  have hgain : ∀ k, k < m → gainAny (s.image g) (V' k) = gainAny s (V k) := by
    intro k hk
    unfold gainAny
    rw [e (V k) (V' k) (fun x hx => h k x hk hx), e (fun x => glog2 (V k x)) (fun x => glog2 (V' k x))
      (fun x hx => by rw [h k x hk hx])]
  unfold anyQ
  congr 1
  · exact Finset.sum_congr rfl (fun k hk => hgain k (Finset.mem_range.mp hk))
  · refine Finset.sum_congr rfl (fun k hk => ?_)
    have hk := Finset.mem_range.mp hk
    unfold lossAny
    rw [hgain k hk, hc, e (V k) (V' k) (fun x hx => h k x hk hx)]

end Lp
