import Verif.Proofs.Scale
import Verif.Proofs.Norm
import Verif.Spec.Reparam
import Mathlib.Tactic.FieldSimp

/-!
# Dividing gains and losses by different positive numbers
-/

namespace Lp
open Spec
variable {K A : Type} [Field K] [LinearOrder K] [IsStrictOrderedRing K]

theorem gainOf_div (R : Quality K) (q : A → Quality K) (L : List A) : gainOf (fun a => (q a).div R) L = gainOf q L / R.gain := by
  unfold gainOf
  simp only [div_eq_mul_inv]
  rw [← List.sum_map_mul_right]
  exact congrArg List.sum (List.map_congr_left (fun x _ => div_eq_mul_inv _ _))

theorem lossOf_div (R : Quality K) (q : A → Quality K) (L : List A) : lossOf (fun a => (q a).div R) L = lossOf q L / R.loss := by
  unfold lossOf
  simp only [div_eq_mul_inv]
  rw [← List.sum_map_mul_right]
  exact congrArg List.sum (List.map_congr_left (fun x _ => div_eq_mul_inv _ _))

/-- The weights `a, b` of the divided qualities and `c, d` of the others are in the same proportion. -/
structure Prop2 (R : Quality K) (a b c d s : K) : Prop where
  gain : 0 < R.gain
  loss : 0 < R.loss
  pos : 0 < s
  fst : a / R.gain = s * c
  snd : b / R.loss = s * d

theorem Prop2.value {R : Quality K} {a b c d s : K} (h : Prop2 R a b c d s) (q : A → Quality K) (L : List A) :
    valueOf a b (fun a => (q a).div R) L = s * valueOf c d q L := by
  unfold valueOf
  rw [gainOf_div, lossOf_div, mul_div_assoc', mul_div_right_comm, h.fst, mul_div_assoc', mul_div_right_comm, h.snd]
  ring

theorem LexFirst.reweight {sols : List Nat → List A → Prop} {R : Quality K} {a b c d s : K} (hp : Prop2 R a b c d s)
    {q : A → Quality K} {ds : List Nat} {L : List A} (h : LexFirst sols c d q ds L) :
    LexFirst sols a b (fun x => (q x).div R) ds L where
  mem := h.mem
  best := fun ds' L' hs => by
    have := h.best ds' L' hs
    unfold LexLe at this ⊢
    simp only [hp.value, gainOf_div, lossOf_div, mul_lt_mul_iff_right₀ hp.pos, mul_right_inj' hp.pos.ne',
      div_lt_div_iff_of_pos_right hp.gain, div_le_div_iff_of_pos_right hp.loss, div_left_inj' hp.gain.ne']
    exact this
  first := fun ds' L' hs h1 h2 => by
    rw [gainOf_div, gainOf_div, div_left_inj' hp.gain.ne'] at h1
    rw [lossOf_div, lossOf_div, div_left_inj' hp.loss.ne'] at h2
    exact h.first ds' L' hs h1 h2

theorem ValFirst.reweight {sols : List Nat → List A → Prop} {R : Quality K} {a b c d s : K} (hp : Prop2 R a b c d s)
    {q : A → Quality K} {ds : List Nat} {L : List A} (h : ValFirst sols c d q ds L) :
    ValFirst sols a b (fun x => (q x).div R) ds L where
  mem := h.mem
  best := fun ds' L' hs => by
    rw [hp.value, hp.value, mul_le_mul_iff_right₀ hp.pos]
    exact h.best ds' L' hs
  first := fun ds' L' hs h1 => by
    rw [hp.value, hp.value, mul_right_inj' hp.pos.ne'] at h1
    exact h.first ds' L' hs h1

variable {F : Type} [FloatP F K]

theorem oBest_reweight {R : Quality K} {q q' : UTM (Quality K)} {n : Nat} {f : Nat → Nat → Quality K} (hq : q.Rep n f)
    (hq' : q'.Rep n (fun i j => (f i j).div R)) {p r : F} {s : K} (hp : Prop2 R (wGain p) (wLoss p) (wGain r) (wLoss r) s) :
    ∃ P P' : OPartition F K, oBestPartition q r = .ok P ∧ oBestPartition q' p = .ok P' ∧
      P'.parts = P.parts.map (fun x => ⟨x.start, x.end, x.quality.div R⟩) ∧ P'.quality = P.quality.div R := by
  obtain ⟨P, ds, L, h1, h2, h3, _, h5⟩ := oBest_lex hq r
  obtain ⟨P', ds', L', g1, g2, g3, _, g5⟩ := oBest_lex hq' p
  have e : L = L' := (h5.reweight hp).unique g5
  subst e
  refine ⟨P, P', h1, g1, ?_, ?_⟩
  · rw [g2, h2, List.map_map]; rfl
  · rw [g3, h3]; exact congrArg₂ Quality.mk (gainOf_div R _ L) (lossOf_div R _ L)

theorem hBest_reweight {leaves : Nat} {parents : List Int} {md : HMeta} (r : RightMeta leaves parents md)
    (hlt : leaves < parents.length) {R : Quality K} {q q' : List (Quality K)} {Q : Nat → Quality K}
    (hq : VRep q parents.length Q) (hq' : VRep q' parents.length (fun h => (Q h).div R)) {p t : F} {s : K}
    (hp : Prop2 R (wGain p) (wLoss p) (wGain t) (wLoss t) s) :
    ∃ P P' : HPartition F K, hBestPartition q md t = .ok P ∧ hBestPartition q' md p = .ok P' ∧
      P'.parts = P.parts.map (fun x => ⟨x.h, x.size, x.quality.div R⟩) ∧ P'.quality = P.quality.div R := by
  obtain ⟨P, ds, L, h1, h2, h3, _, h5, _⟩ := hBest_first r hlt hq t
  obtain ⟨P', ds', L', g1, g2, g3, _, g5, _⟩ := hBest_first r hlt hq' p
  have e : L = L' := (h5.reweight hp).unique g5
  subst e
  refine ⟨P, P', h1, g1, ?_, ?_⟩
  · rw [g2, h2, List.map_map]; rfl
  · rw [g3, h3]; exact congrArg₂ Quality.mk (gainOf_div R _ L) (lossOf_div R _ L)

theorem dBest_reweight {leaves n : Nat} {parents : List Int} {md : HMeta} (r : RightMeta leaves parents md)
    (h0 : 0 < n) (hn : n ≤ 65535) {R : Quality K} {q q' : List (UTM (Quality K))} {Q : Nat → Nat → Nat → Quality K}
    (hq : MRep q parents.length n Q) (hq' : MRep q' parents.length n (fun h i j => (Q h i j).div R)) {p t : F} {s : K}
    (hp : Prop2 R (wGain p) (wLoss p) (wGain t) (wLoss t) s) :
    ∃ P P' : DPartition F K, dBestPartition q md t = .ok P ∧ dBestPartition q' md p = .ok P' ∧
      P'.parts = P.parts.map (fun x => { x with quality := x.quality.div R }) ∧ P'.quality = P.quality.div R := by
  obtain ⟨P, ds, L, h1, h2, h3, _, h5⟩ := dBest_first r hq h0 hn t
  obtain ⟨P', ds', L', g1, g2, g3, _, g5⟩ := dBest_first r hq' h0 hn p
  have e : L = L' := (h5.reweight hp).unique g5
  subst e
  refine ⟨P, P', h1, g1, ?_, ?_⟩
  · rw [g2, h2, List.map_map]; rfl
  · rw [g3, h3]
    have : (rq fun h i j => (Q h i j).div R) = fun r => ((rq Q) r).div R := rfl
    rw [this, gainOf_div, lossOf_div]; rfl

/-! ## The parameter -/

theorem reparam_den {G L p : K} (hG : 0 < G) (hL : 0 < L) (h0 : 0 ≤ p) (h1 : p ≤ 1) : 0 < p * L + (1 - p) * G := by
  rcases eq_or_lt_of_le h0 with rfl | h
  · simpa using hG
  · have := mul_pos h hL
    have := mul_nonneg (sub_nonneg.mpr h1) hG.le
    linarith

theorem one_sub_reparam {G L p : K} (hG : 0 < G) (hL : 0 < L) (h0 : 0 ≤ p) (h1 : p ≤ 1) :
    1 - reparam G L p = (1 - p) * G / (p * L + (1 - p) * G) := by
  have := (reparam_den hG hL h0 h1).ne'
  unfold reparam
  rw [eq_div_iff this, sub_mul, div_mul_cancel₀ _ this]
  ring

theorem prop2_reparam {R : Quality K} (hG : 0 < R.gain) (hL : 0 < R.loss) {p : K} (h0 : 0 ≤ p) (h1 : p ≤ 1) :
    Prop2 R (wGain p) (wLoss p) (wGain (reparam R.gain R.loss p)) (wLoss (reparam R.gain R.loss p))
      ((p * R.loss + (1 - p) * R.gain) / (R.gain * R.loss)) where
  gain := hG
  loss := hL
  pos := div_pos (reparam_den hG hL h0 h1) (mul_pos hG hL)
  fst := by
    change p / R.gain = _ * reparam R.gain R.loss p
    have := (reparam_den hG hL h0 h1).ne'
    have := hG.ne'; have := hL.ne'
    unfold reparam
    generalize p * R.loss + (1 - p) * R.gain = D at *
    field_simp
  snd := by
    change (1 - p) / R.loss = _ * (1 - reparam R.gain R.loss p)
    rw [one_sub_reparam hG hL h0 h1]
    have := (reparam_den hG hL h0 h1).ne'
    have := hG.ne'; have := hL.ne'
    field_simp

theorem reparam_unit {G L p : K} (hG : 0 < G) (hL : 0 < L) (h0 : 0 ≤ p) (h1 : p ≤ 1) :
    0 ≤ reparam G L p ∧ reparam G L p ≤ 1 := by
  have d := reparam_den hG hL h0 h1
  constructor
  · exact div_nonneg (mul_nonneg h0 hL.le) d.le
  · have := one_sub_reparam hG hL h0 h1
    have : 0 ≤ 1 - reparam G L p := by
      rw [this]; exact div_nonneg (mul_nonneg (sub_nonneg.mpr h1) hG.le) d.le
    linarith

theorem reparam_inv {G L p : K} (hG : 0 < G) (hL : 0 < L) (h0 : 0 ≤ p) (h1 : p ≤ 1) :
    reparam L G (reparam G L p) = p := by
  have d := (reparam_den hG hL h0 h1).ne'
  have hu := reparam_unit hG hL h0 h1
  have d' := (reparam_den hL hG hu.1 hu.2).ne'
  have e : reparam L G (reparam G L p) =
      reparam G L p * G / (reparam G L p * G + (1 - reparam G L p) * L) := rfl
  rw [e, div_eq_iff d', one_sub_reparam hG hL h0 h1]
  unfold reparam
  field_simp
  ring

theorem reparam_lt {G L p p' : K} (hG : 0 < G) (hL : 0 < L) (h0 : 0 ≤ p) (h : p < p') (h1 : p' ≤ 1) :
    reparam G L p < reparam G L p' := by
  have d := reparam_den hG hL h0 (h.le.trans h1)
  have d' := reparam_den hG hL (h0.trans h.le) h1
  unfold reparam
  rw [div_lt_div_iff₀ d d']
  have := mul_pos (mul_pos hG hL) (sub_pos.mpr h)
  nlinarith

end Lp
