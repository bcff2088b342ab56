import Verif.Proofs.SearchList
import Verif.Props.C32

/-!
# The curve of the qualities of the best partitions
-/

namespace Lp
open Spec
variable {F K A : Type} [Field K] [LinearOrder K] [IsStrictOrderedRing K]

omit [IsStrictOrderedRing K] in
/-- Two first optima with the same gain and loss, for whatever weights, are the same. -/
theorem LexFirst.same_quality {decs : Decs σ A} {st : List σ} {a b a' b' : K} {q : A → Quality K}
    {ds ds' : List Nat} {L L' : List A} (h : LexFirst (Sol decs st) a b q ds L)
    (h' : LexFirst (Sol decs st) a' b' q ds' L') (hg : gainOf q L' = gainOf q L) (hl : lossOf q L' = lossOf q L) :
    L' = L := by
  have e : ds = ds' := by
    rcases h.first ds' L' h'.mem hg hl with e | e
    · exact e
    · rcases h'.first ds L h.mem hg.symm hl.symm with e' | e'
      · exact e'.symm
      · exact absurd e' e.asymm
  subst e
  exact h'.mem.unique h.mem

omit [IsStrictOrderedRing K] in
theorem ValFirst.same_quality {decs : Decs σ A} {st : List σ} {a b a' b' : K} {q : A → Quality K}
    {ds ds' : List Nat} {L L' : List A} (h : ValFirst (Sol decs st) a b q ds L)
    (h' : ValFirst (Sol decs st) a' b' q ds' L') (hg : gainOf q L' = gainOf q L) (hl : lossOf q L' = lossOf q L) :
    L' = L := by
  have e : ds = ds' := by
    rcases h.first ds' L' h'.mem (by unfold valueOf; rw [hg, hl]) with e | e
    · exact e
    · rcases h'.first ds L h.mem (by unfold valueOf; rw [hg, hl]) with e' | e'
      · exact e'.symm
      · exact absurd e' e.asymm
  subst e
  exact h'.mem.unique h.mem

variable [FloatP F K]

/-- What the curve theorems need of the best partitions of one partitioner. -/
structure CurveOps {P T : Type} (ops : PartOps F K P T) : Prop where
  /-- the best partition of `p` is not worse at `p` than that of `p'` -/
  opt : ∀ (p p' : F) (X X' : P), ops.best p = .ok X → ops.best p' = .ok X' →
    wGain p * (ops.quality X').gain - wLoss p * (ops.quality X').loss ≤
      wGain p * (ops.quality X).gain - wLoss p * (ops.quality X).loss
  /-- equal qualities mean equal partitions -/
  det : ∀ (p p' : F) (X X' : P), ops.best p = .ok X → ops.best p' = .ok X' → ops.quality X = ops.quality X' →
    ops.same X X' = true

theorem isPartitioner_curve {P T : Type} {ops : PartOps F K P T} (h : IsPartitioner ops) : CurveOps ops := by
  cases h with
  | ordered q n f hq =>
    constructor
    · intro p p' X X' e e'
      obtain ⟨R, ds, L, a1, _, a3, _, a5⟩ := oBest_lex hq p
      obtain ⟨R', ds', L', b1, _, b3, _, b5⟩ := oBest_lex hq p'
      obtain rfl := C24.res_aux e a1
      obtain rfl := C24.res_aux e' b1
      change wGain p * X'.quality.gain - wLoss p * X'.quality.loss ≤ wGain p * X.quality.gain - wLoss p * X.quality.loss
      rw [a3, b3]
      exact (a5.best ds' L' b5.mem).value
    · intro p p' X X' e e' hQ
      obtain ⟨R, ds, L, a1, a2, a3, _, a5⟩ := oBest_lex hq p
      obtain ⟨R', ds', L', b1, b2, b3, _, b5⟩ := oBest_lex hq p'
      obtain rfl := C24.res_aux e a1
      obtain rfl := C24.res_aux e' b1
      change X.quality = X'.quality at hQ
      rw [a3, b3] at hQ
      have := a5.same_quality b5 (congrArg Quality.gain hQ).symm (congrArg Quality.loss hQ).symm
      subst this
      have hk : ∀ x y : OPart K, OPart.eqOp x y = true ↔ (x.start, x.end) = (y.start, y.end) := by
        intro a b; simp [OPart.eqOp]
      exact (allEq_iff hk _ _).mpr (by rw [a2, b2])
  | hierarchical leaves parents md q Q hmd hlt hq =>
    constructor
    · intro p p' X X' e e'
      obtain ⟨R, ds, L, a1, _, a3, _, a5, _⟩ := hBest_first hmd hlt hq p
      obtain ⟨R', ds', L', b1, _, b3, _, b5, _⟩ := hBest_first hmd hlt hq p'
      obtain rfl := C24.res_aux e a1
      obtain rfl := C24.res_aux e' b1
      change wGain p * X'.quality.gain - wLoss p * X'.quality.loss ≤ wGain p * X.quality.gain - wLoss p * X.quality.loss
      rw [a3, b3]
      exact a5.best ds' L' b5.mem
    · intro p p' X X' e e' hQ
      obtain ⟨R, ds, L, a1, a2, a3, _, a5, _⟩ := hBest_first hmd hlt hq p
      obtain ⟨R', ds', L', b1, b2, b3, _, b5, _⟩ := hBest_first hmd hlt hq p'
      obtain rfl := C24.res_aux e a1
      obtain rfl := C24.res_aux e' b1
      change X.quality = X'.quality at hQ
      rw [a3, b3] at hQ
      have := a5.same_quality b5 (congrArg Quality.gain hQ).symm (congrArg Quality.loss hQ).symm
      subst this
      have hk : ∀ x y : HPart K, HPart.eqOp x y = true ↔ (x.size, x.h) = (y.size, y.h) := by
        intro a b; simp [HPart.eqOp]
      exact (allEq_iff hk _ _).mpr (by rw [a2, b2])
  | spatiotemporal leaves parents md n q Q hmd h0 hn hq =>
    constructor
    · intro p p' X X' e e'
      obtain ⟨R, ds, L, a1, _, a3, _, a5⟩ := dBest_first hmd hq h0 hn p
      obtain ⟨R', ds', L', b1, _, b3, _, b5⟩ := dBest_first hmd hq h0 hn p'
      obtain rfl := C24.res_aux e a1
      obtain rfl := C24.res_aux e' b1
      change wGain p * X'.quality.gain - wLoss p * X'.quality.loss ≤ wGain p * X.quality.gain - wLoss p * X.quality.loss
      rw [a3, b3]
      exact (a5.best ds' L' b5.mem).value
    · intro p p' X X' e e' hQ
      obtain ⟨R, ds, L, a1, a2, a3, _, a5⟩ := dBest_first hmd hq h0 hn p
      obtain ⟨R', ds', L', b1, b2, b3, _, b5⟩ := dBest_first hmd hq h0 hn p'
      obtain rfl := C24.res_aux e a1
      obtain rfl := C24.res_aux e' b1
      change X.quality = X'.quality at hQ
      rw [a3, b3] at hQ
      have := a5.same_quality b5 (congrArg Quality.gain hQ).symm (congrArg Quality.loss hQ).symm
      subst this
      have hp : X.parts = X'.parts := by rw [a2, b2]
      change DPartition.eqOp X X' = true
      unfold DPartition.eqOp
      rw [hp]
      simp only [ne_eq, not_true_eq_false, if_false, List.all_eq_true, List.any_eq_true]
      exact fun x hx => ⟨x, hx, by simp [DPart.eqOp]⟩

variable {u : K}

/-- For `0 ≤ p1 < p2 < p3 ≤ 1` the middle point lies on or above the chord. -/
theorem CurveOps.concave (fl : FloatLaws F K u) {P T : Type} {ops : PartOps F K P T} (h : CurveOps ops) {p1 p2 p3 : F}
    (h0 : (0 : K) ≤ FloatP.toK p2) (h1 : (FloatP.toK p2 : K) ≤ 1) {X1 X2 X3 : P}
    (e1 : ops.best p1 = .ok X1) (e2 : ops.best p2 = .ok X2) (e3 : ops.best p3 = .ok X3)
    (g12 : C24.Grows (ops.quality X1) (ops.quality X2)) (g23 : C24.Grows (ops.quality X2) (ops.quality X3)) :
    ((ops.quality X3).gain - (ops.quality X2).gain) * ((ops.quality X2).loss - (ops.quality X1).loss) ≤
      ((ops.quality X2).gain - (ops.quality X1).gain) * ((ops.quality X3).loss - (ops.quality X2).loss) := by
  have a := h.opt p2 p1 X2 X1 e2 e1
  have b := h.opt p2 p3 X2 X3 e2 e3
  have w0 : (0 : K) ≤ wGain p2 := h0
  have l0 : (0 : K) ≤ wLoss p2 := wLoss_nonneg fl h1
  obtain ⟨g1, l1⟩ := g12
  obtain ⟨g2, l2⟩ := g23
  set x := (ops.quality X2).gain - (ops.quality X1).gain with hx
  set y := (ops.quality X2).loss - (ops.quality X1).loss with hy
  set z := (ops.quality X3).gain - (ops.quality X2).gain with hz
  set t := (ops.quality X3).loss - (ops.quality X2).loss with ht
  have x0 : 0 ≤ x := by linarith
  have y0 : 0 ≤ y := by linarith
  have z0 : 0 ≤ z := by linarith
  have t0 : 0 ≤ t := by linarith
  -- w x ≥ l y, w z ≤ l t
  have A : wLoss p2 * y ≤ wGain p2 * x := by rw [hx, hy]; linarith
  have B : wGain p2 * z ≤ wLoss p2 * t := by rw [hz, ht]; linarith
  rcases lt_or_eq_of_le w0 with w | w
  · -- w z y ≤ l t y ≤ w x t
    have c1 := mul_le_mul_of_nonneg_right B y0
    have c2 := mul_le_mul_of_nonneg_right A t0
    have : wGain p2 * (z * y) ≤ wGain p2 * (x * t) := by nlinarith
    exact le_of_mul_le_mul_left this w
  · have hl : (0 : K) < wLoss p2 := by
      apply wLoss_pos fl; rw [← w]; exact one_pos
    have : y = 0 := by
      rw [← w, zero_mul] at A
      rcases lt_or_eq_of_le y0 with h | h
      · have := mul_pos hl h; linarith
      · exact h.symm
    rw [this, mul_zero]
    exact mul_nonneg x0 t0

/-- Between `p1 < p2` with `p1 > 0` and `p2 < 1`, different qualities differ in both components. -/
theorem CurveOps.strict (fl : FloatLaws F K u) {P T : Type} {ops : PartOps F K P T} (h : CurveOps ops) {p1 p2 : F}
    (h0 : (0 : K) < FloatP.toK p1) (h1 : (FloatP.toK p2 : K) < 1) {X1 X2 : P}
    (e1 : ops.best p1 = .ok X1) (e2 : ops.best p2 = .ok X2) (g : C24.Grows (ops.quality X1) (ops.quality X2))
    (hne : ops.quality X1 ≠ ops.quality X2) :
    (ops.quality X1).gain < (ops.quality X2).gain ∧ (ops.quality X1).loss < (ops.quality X2).loss := by
  have a := h.opt p1 p2 X1 X2 e1 e2
  have b := h.opt p2 p1 X2 X1 e2 e1
  have w0 : (0 : K) < wGain p1 := h0
  have l0 : (0 : K) < wLoss p2 := wLoss_pos fl h1
  obtain ⟨g1, g2⟩ := g
  rcases lt_or_eq_of_le g1 with g1 | g1
  · refine ⟨g1, lt_of_le_of_ne g2 (fun e => ?_)⟩
    rw [e] at a
    have := mul_lt_mul_of_pos_left g1 w0
    linarith
  · exfalso
    have g2 : (ops.quality X1).loss < (ops.quality X2).loss := by
      refine lt_of_le_of_ne g2 (fun e => hne ?_)
      cases hx : ops.quality X1; cases hy : ops.quality X2
      rw [hx, hy] at g1 e
      simp only at g1 e
      rw [g1, e]
    rw [g1] at b
    have := mul_lt_mul_of_pos_left g2 l0
    linarith

/-- The result at `p` in `[0,1]` is not dominated by the result at another parameter. -/
def NotDominated {P T : Type} (ops : PartOps F K P T) : Prop :=
  ∀ (p p' : F) (X X' : P), (0 : K) ≤ FloatP.toK p → (FloatP.toK p : K) ≤ 1 → ops.best p = .ok X → ops.best p' = .ok X' →
    ¬ ((ops.quality X).gain ≤ (ops.quality X').gain ∧ (ops.quality X').loss ≤ (ops.quality X).loss ∧
      ((ops.quality X).gain < (ops.quality X').gain ∨ (ops.quality X').loss < (ops.quality X).loss))

theorem oNotDominated (fl : FloatLaws F K u) {q : UTM (Quality K)} {n : Nat} {f : Nat → Nat → Quality K} (hq : q.Rep n f) :
    NotDominated (oOps (F := F) q) := by
  intro p p' X X' h0 h1 e e'
  obtain ⟨R, ds, L, a1, _, a3, _, a5⟩ := oBest_lex hq p
  obtain ⟨R', ds', L', b1, _, b3, _, b5⟩ := oBest_lex hq p'
  obtain rfl := C24.res_aux e a1
  obtain rfl := C24.res_aux e' b1
  rw [show (oOps (F := F) q).quality X = X.quality from rfl, show (oOps (F := F) q).quality X' = X'.quality from rfl, a3, b3]
  exact pareto_of_lex (show (0 : K) ≤ wGain p from h0) (wLoss_nonneg fl h1) (a5.best ds' L' b5.mem)

theorem dNotDominated (fl : FloatLaws F K u) {leaves : Nat} {parents : List Int} {md : HMeta} {n : Nat}
    {q : List (UTM (Quality K))} {Q : Nat → Nat → Nat → Quality K} (hmd : RightMeta leaves parents md) (hn0 : 0 < n)
    (hn : n ≤ 65535) (hq : MRep q parents.length n Q) : NotDominated (dOps (F := F) q md) := by
  intro p p' X X' h0 h1 e e'
  obtain ⟨R, ds, L, a1, _, a3, _, a5⟩ := dBest_first hmd hq hn0 hn p
  obtain ⟨R', ds', L', b1, _, b3, _, b5⟩ := dBest_first hmd hq hn0 hn p'
  obtain rfl := C24.res_aux e a1
  obtain rfl := C24.res_aux e' b1
  rw [show (dOps (F := F) q md).quality X = X.quality from rfl, show (dOps (F := F) q md).quality X' = X'.quality from rfl, a3, b3]
  exact pareto_of_lex (show (0 : K) ≤ wGain p from h0) (wLoss_nonneg fl h1) (a5.best ds' L' b5.mem)

theorem NotDominated.strict {P T : Type} {ops : PartOps F K P T} (h : NotDominated ops) {p1 p2 : F}
    (h0 : (0 : K) ≤ FloatP.toK p1) (h01 : (FloatP.toK p1 : K) ≤ 1) (h02 : (0 : K) ≤ FloatP.toK p2)
    (h1 : (FloatP.toK p2 : K) ≤ 1) {X1 X2 : P}
    (e1 : ops.best p1 = .ok X1) (e2 : ops.best p2 = .ok X2) (g : C24.Grows (ops.quality X1) (ops.quality X2))
    (hne : ops.quality X1 ≠ ops.quality X2) :
    (ops.quality X1).gain < (ops.quality X2).gain ∧ (ops.quality X1).loss < (ops.quality X2).loss := by
  have a := h p1 p2 X1 X2 h0 h01 e1 e2
  have b := h p2 p1 X2 X1 h02 h1 e2 e1
  obtain ⟨g1, g2⟩ := g
  rcases lt_or_eq_of_le g1 with g1 | g1
  · refine ⟨g1, lt_of_le_of_ne g2 (fun e => a ⟨g1.le, e.ge, Or.inl g1⟩)⟩
  · exfalso
    refine b ⟨g1.ge, g2, Or.inr (lt_of_le_of_ne g2 (fun e => hne ?_))⟩
    cases hx : ops.quality X1; cases hy : ops.quality X2
    rw [hx, hy] at g1 e
    simp only at g1 e
    rw [g1, e]

/-- Three points in order on a curve that does not bend upwards. -/
def Bends (a b c : Quality K) : Prop :=
  (c.gain - b.gain) * (b.loss - a.loss) ≤ (b.gain - a.gain) * (c.loss - b.loss)

/-- The area below a curve of that shape is at most that below the chord. -/
theorem area_chord : ∀ (l : List (Quality K)) (a z : Quality K),
    (a :: l ++ [z]).Pairwise C24.Grows → (∀ x y w, [x, y, w].Sublist (a :: l ++ [z]) → Bends x y w) →
    C32.area (a :: l ++ [z]) ≤ (z.gain - a.gain) * (z.loss + a.loss) / 2 := by
  intro l
  induction l with
  | nil => intro a z _ _; simp [C32.area]
  | cons b l ih =>
    intro a z hp hb
    have i := ih b z (List.pairwise_cons.mp hp).2 (fun x y w h => hb x y w (h.trans (List.sublist_cons_self _ _)))
    have k : Bends a b z := hb a b z (by
      simp only [List.cons_append]
      exact .cons_cons _ (.cons_cons _ (by simp)))
    have e : C32.area (a :: b :: l ++ [z]) = (b.gain - a.gain) * (b.loss + a.loss) / 2 + C32.area (b :: l ++ [z]) := rfl
    rw [e]
    unfold Bends at k
    nlinarith [k, i]

end Lp
