import Verif.Proofs.Ent
import Verif.Proofs.Weights
import Verif.Proofs.DExact

/-!
# Scaling the data, scaling the qualities
-/

namespace Lp
open Spec
variable {ι A : Type} {m : Nat}

theorem xlog2_mul {c : ℝ} (hc : 0 < c) (x : ℝ) : xlog2 (c * x) = c * xlog2 x + c * x * Real.logb 2 c := by
  unfold xlog2
  rcases eq_or_ne x 0 with rfl | hx
  · simp
  · rw [Real.logb_mul hc.ne' hx]; ring

theorem gainOver_mul {c : ℝ} (hc : 0 < c) (s : Finset ι) (v : ι → ℝ) :
    gainOver s (fun x => c * v x) = c * gainOver s v := by
  unfold gainOver
  rw [← Finset.mul_sum, xlog2_mul hc, Finset.sum_congr rfl (fun x _ => xlog2_mul hc (v x)), Finset.sum_add_distrib,
    ← Finset.mul_sum, ← Finset.sum_mul, ← Finset.mul_sum]
  ring

theorem lossOver_mul {c : ℝ} (hc : 0 < c) (s : Finset ι) (v : ι → ℝ) :
    lossOver s (fun x => c * v x) = c * lossOver s v := by
  unfold lossOver
  rw [gainOver_mul hc, ← Finset.mul_sum]; ring

theorem gainSeries_mul {c : ℝ} (hc : 0 < c) (s : Finset ι) (V : Nat → ι → ℝ) :
    gainSeries m s (fun k x => c * V k x) = c * gainSeries m s V := by
  unfold gainSeries
  rw [Finset.mul_sum]
  exact Finset.sum_congr rfl (fun k _ => gainOver_mul hc s (V k))

theorem lossSeries_mul {c : ℝ} (hc : 0 < c) (s : Finset ι) (V : Nat → ι → ℝ) :
    lossSeries m s (fun k x => c * V k x) = c * lossSeries m s V := by
  unfold lossSeries
  rw [Finset.mul_sum]
  exact Finset.sum_congr rfl (fun k _ => lossOver_mul hc s (V k))

section
variable {K : Type} [Field K] [LinearOrder K] [IsStrictOrderedRing K]

/-- Gain and loss multiplied by `c`. -/
def Quality.scale (c : K) (q : Quality K) : Quality K := ⟨c * q.gain, c * q.loss⟩

theorem entQ_mul {c : ℝ} (hc : 0 < c) (s : Finset ι) (V : Nat → ι → ℝ) :
    entQ m (fun k x => c * V k x) s = (entQ m V s).scale c := by
  unfold entQ Quality.scale
  rw [gainSeries_mul hc, lossSeries_mul hc]

theorem gainOf_scale (c : K) (q : A → Quality K) (L : List A) : gainOf (fun a => (q a).scale c) L = c * gainOf q L := by
  unfold gainOf Quality.scale
  rw [List.sum_map_mul_left]

theorem lossOf_scale (c : K) (q : A → Quality K) (L : List A) : lossOf (fun a => (q a).scale c) L = c * lossOf q L := by
  unfold lossOf Quality.scale
  rw [List.sum_map_mul_left]

theorem valueOf_scale (c a b : K) (q : A → Quality K) (L : List A) :
    valueOf a b (fun a => (q a).scale c) L = c * valueOf a b q L := by
  unfold valueOf
  rw [gainOf_scale, lossOf_scale]; ring

theorem LexFirst.scale {sols : List Nat → List A → Prop} {a b c : K} (hc : 0 < c) {q : A → Quality K} {ds : List Nat}
    {L : List A} (h : LexFirst sols a b q ds L) : LexFirst sols a b (fun x => (q x).scale c) ds L where
  mem := h.mem
  best := fun ds' L' hs => by
    have := h.best ds' L' hs
    unfold LexLe at this ⊢
    simp only [valueOf_scale, gainOf_scale, lossOf_scale, mul_lt_mul_iff_right₀ hc, mul_le_mul_iff_right₀ hc,
      mul_right_inj' hc.ne']
    exact this
  first := fun ds' L' hs h1 h2 => by
    rw [gainOf_scale, gainOf_scale, mul_right_inj' hc.ne'] at h1
    rw [lossOf_scale, lossOf_scale, mul_right_inj' hc.ne'] at h2
    exact h.first ds' L' hs h1 h2

theorem ValFirst.scale {sols : List Nat → List A → Prop} {a b c : K} (hc : 0 < c) {q : A → Quality K} {ds : List Nat}
    {L : List A} (h : ValFirst sols a b q ds L) : ValFirst sols a b (fun x => (q x).scale c) ds L where
  mem := h.mem
  best := fun ds' L' hs => by
    rw [valueOf_scale, valueOf_scale, mul_le_mul_iff_right₀ hc]
    exact h.best ds' L' hs
  first := fun ds' L' hs h1 => by
    rw [valueOf_scale, valueOf_scale, mul_right_inj' hc.ne'] at h1
    exact h.first ds' L' hs h1

theorem LexFirst.unique {σ : Type} {decs : Decs σ A} {st : List σ} {a b : K} {q : A → Quality K} {ds ds' : List Nat}
    {L L' : List A} (h : LexFirst (Sol decs st) a b q ds L) (h' : LexFirst (Sol decs st) a b q ds' L') : L = L' := by
  have e : ds = ds' := LexFirst.between ⟨1, 0, by norm_num, le_refl _, by simp, by ring, by ring⟩ h h h'
  subst e
  exact h.mem.unique h'.mem

theorem ValFirst.unique {σ : Type} {decs : Decs σ A} {st : List σ} {a b : K} {q : A → Quality K} {ds ds' : List Nat}
    {L L' : List A} (h : ValFirst (Sol decs st) a b q ds L) (h' : ValFirst (Sol decs st) a b q ds' L') : L = L' := by
  have e : ds = ds' := ValFirst.between ⟨1, 0, by norm_num, le_refl _, by simp, by ring, by ring⟩ h h h'
  subst e
  exact h.mem.unique h'.mem

variable {F : Type} [FloatP F K]

/-- The partitions of two tables, one being a positive multiple of the other. -/
theorem oBest_scale {c : K} (hc : 0 < c) {q q' : UTM (Quality K)} {n : Nat} {f : Nat → Nat → Quality K} (hq : q.Rep n f)
    (hq' : q'.Rep n (fun i j => (f i j).scale c)) (p : F) :
    ∃ P P' : OPartition F K, oBestPartition q p = .ok P ∧ oBestPartition q' p = .ok P' ∧
      P'.parts = P.parts.map (fun x => ⟨x.start, x.end, x.quality.scale c⟩) ∧ P'.quality = P.quality.scale c := by
  obtain ⟨P, ds, L, h1, h2, h3, _, h5⟩ := oBest_lex hq p
  obtain ⟨P', ds', L', g1, g2, g3, _, g5⟩ := oBest_lex hq' p
  have e : L = L' := (h5.scale hc).unique g5
  subst e
  refine ⟨P, P', h1, g1, ?_, ?_⟩
  · rw [g2, h2, List.map_map]; rfl
  · rw [g3, h3]; exact congrArg₂ Quality.mk (gainOf_scale c _ L) (lossOf_scale c _ L)

theorem hBest_scale {leaves : Nat} {parents : List Int} {md : HMeta} (r : RightMeta leaves parents md)
    (hlt : leaves < parents.length) {c : K} (hc : 0 < c) {q q' : List (Quality K)} {Q : Nat → Quality K}
    (hq : VRep q parents.length Q) (hq' : VRep q' parents.length (fun h => (Q h).scale c)) (p : F) :
    ∃ P P' : HPartition F K, hBestPartition q md p = .ok P ∧ hBestPartition q' md p = .ok P' ∧
      P'.parts = P.parts.map (fun x => ⟨x.h, x.size, x.quality.scale c⟩) ∧ P'.quality = P.quality.scale c := by
  obtain ⟨P, ds, L, h1, h2, h3, _, h5, _⟩ := hBest_first r hlt hq p
  obtain ⟨P', ds', L', g1, g2, g3, _, g5, _⟩ := hBest_first r hlt hq' p
  have e : L = L' := (h5.scale hc).unique g5
  subst e
  refine ⟨P, P', h1, g1, ?_, ?_⟩
  · rw [g2, h2, List.map_map]; rfl
  · rw [g3, h3]; exact congrArg₂ Quality.mk (gainOf_scale c _ L) (lossOf_scale c _ L)

theorem dBest_scale {leaves n : Nat} {parents : List Int} {md : HMeta} (r : RightMeta leaves parents md)
    (h0 : 0 < n) (hn : n ≤ 65535) {c : K} (hc : 0 < c) {q q' : List (UTM (Quality K))} {Q : Nat → Nat → Nat → Quality K}
    (hq : MRep q parents.length n Q) (hq' : MRep q' parents.length n (fun h i j => (Q h i j).scale c)) (p : F) :
    ∃ P P' : DPartition F K, dBestPartition q md p = .ok P ∧ dBestPartition q' md p = .ok P' ∧
      P'.parts = P.parts.map (fun x => { x with quality := x.quality.scale c }) ∧ P'.quality = P.quality.scale c := by
  obtain ⟨P, ds, L, h1, h2, h3, _, h5⟩ := dBest_first r hq h0 hn p
  obtain ⟨P', ds', L', g1, g2, g3, _, g5⟩ := dBest_first r hq' h0 hn p
  have e : L = L' := (h5.scale hc).unique g5
  subst e
  refine ⟨P, P', h1, g1, ?_, ?_⟩
  · rw [g2, h2, List.map_map]; rfl
  · rw [g3, h3]
    have : (rq fun h i j => (Q h i j).scale c) = fun r => ((rq Q) r).scale c := rfl
    rw [this]
    rw [gainOf_scale, lossOf_scale]; rfl

end
end Lp
