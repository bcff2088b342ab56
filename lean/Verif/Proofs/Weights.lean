import Verif.Proofs.Choice
import Verif.Proofs.OExact
import Verif.Proofs.DExact
import Verif.Spec.Float

/-!
# The weights `p` and `1-p` as the code rounds them
-/

namespace Lp
open Spec
variable {F K A : Type} [Field K] [LinearOrder K] [IsStrictOrderedRing K] [FloatP F K] {u : K}

theorem wLoss_nonneg (fl : FloatLaws F K u) {p : F} (h1 : (wGain p : K) ≤ 1) : (0 : K) ≤ wLoss p := by
  rcases lt_or_eq_of_le h1 with h | h
  · exact (fl.oneSub_pos p h).le
  · exact (fl.oneSub_one p h).ge

theorem wLoss_pos (fl : FloatLaws F K u) {p : F} (h1 : (wGain p : K) < 1) : (0 : K) < wLoss p :=
  fl.oneSub_pos p h1

theorem wLoss_anti (fl : FloatLaws F K u) {p p' : F} (h : (wGain p : K) ≤ wGain p') :
    (wLoss p' : K) ≤ wLoss p := fl.oneSub_anti p p' h

theorem weights_cross (fl : FloatLaws F K u) {p p' : F} (h0 : (0 : K) ≤ wGain p) (h : (wGain p : K) < wGain p')
    (h1 : (wGain p' : K) ≤ 1) : (wGain p : K) * wLoss p' < wGain p' * wLoss p := by
  have a := wLoss_anti fl h.le
  have b := wLoss_pos fl (lt_of_lt_of_le h h1)
  calc (wGain p : K) * wLoss p' ≤ wGain p * wLoss p := mul_le_mul_of_nonneg_left a h0
    _ < wGain p' * wLoss p := mul_lt_mul_of_pos_right h b

theorem weights_cone (fl : FloatLaws F K u) {p1 p p2 : F} (h0 : (0 : K) ≤ wGain p1) (h1 : (wGain p1 : K) ≤ wGain p)
    (h2 : (wGain p : K) ≤ wGain p2) (h12 : (wGain p1 : K) < wGain p2) (h3 : (wGain p2 : K) ≤ 1) :
    ∃ x y : K, 0 ≤ x ∧ 0 ≤ y ∧ (0 < x ∨ 0 < y) ∧ wGain p = x * wGain p1 + y * wGain p2 ∧
      wLoss p = x * wLoss p1 + y * wLoss p2 := by
  refine cone h1 h2 (wLoss_anti fl h1) (wLoss_anti fl h2) h0 (wLoss_nonneg fl h3) (weights_cross fl h0 h12 h3) ?_
  rcases lt_or_eq_of_le (le_trans h2 h3) with h | h
  · exact Or.inr (wLoss_pos fl h)
  · left; change (wGain p : K) = 1 at h; rw [h]; exact one_pos

omit [FloatP F K] [IsStrictOrderedRing K] in
theorem LexFirst.ds_eq {sols : List Nat → List A → Prop} {a b a' b' : K} {q : A → Quality K}
    {ds ds' : List Nat} {L : List A} (h : LexFirst sols a b q ds L) (h' : LexFirst sols a' b' q ds' L) : ds = ds' := by
  rcases h.first ds' L h'.mem rfl rfl with e | e
  · exact e
  · rcases h'.first ds L h.mem rfl rfl with e' | e'
    · exact e'.symm
    · exact absurd e' e.asymm

omit [FloatP F K] [IsStrictOrderedRing K] in
theorem ValFirst.ds_eq {sols : List Nat → List A → Prop} {a b a' b' : K} {q : A → Quality K}
    {ds ds' : List Nat} {L : List A} (h : ValFirst sols a b q ds L) (h' : ValFirst sols a' b' q ds' L) : ds = ds' := by
  rcases h.first ds' L h'.mem rfl with e | e
  · exact e
  · rcases h'.first ds L h.mem rfl with e' | e'
    · exact e'.symm
    · exact absurd e' e.asymm

/-- The ordered partition as a first optimal derivation. -/
theorem oBest_lex {q : UTM (Quality K)} {n : Nat} {f : Nat → Nat → Quality K} (hq : q.Rep n f) (p : F) :
    ∃ (P : OPartition F K) (ds : List Nat) (L : List (Nat × Nat)),
      oBestPartition q p = .ok P ∧ P.parts = L.map (oPartOf f) ∧
      P.quality = ⟨gainOf (fun x : Nat × Nat => f x.1 x.2) L, lossOf (fun x : Nat × Nat => f x.1 x.2) L⟩ ∧
      P.parameter = p ∧
      LexFirst (Sol (oDecs n) (oStart n 0)) (wGain p) (wLoss p) (fun x : Nat × Nat => f x.1 x.2) ds L := by
  obtain ⟨P, ds, L, h1, h2, h3, h4, h5, h6⟩ := oBest_first hq p
  refine ⟨P, ds, L, h1, h2, h3, h4, h5, ?_, ?_⟩
  · intro ds' L' hs'
    rw [← wsum_obq_le]
    exact (h6 ds' L' hs').1
  · intro ds' L' hs' hg hl
    exact (h6 ds' L' hs').2 (wsum_obq_eq p _ _ _ hg hl)

/-- Monotonicity from two lexicographic optima over the same solutions. -/
theorem LexFirst.mono (fl : FloatLaws F K u) {sols : List Nat → List A → Prop} {q : A → Quality K} {p p' : F}
    {ds ds' : List Nat} {L L' : List A} (h : LexFirst sols (wGain p) (wLoss p) q ds L)
    (h' : LexFirst sols (wGain p') (wLoss p') q ds' L') (h0 : (0 : K) ≤ wGain p)
    (hlt : (wGain p : K) < wGain p') (h1 : (wGain p' : K) ≤ 1) :
    gainOf q L ≤ gainOf q L' ∧ lossOf q L ≤ lossOf q L' :=
  mono_of_opt h0 (wLoss_nonneg fl (le_trans hlt.le h1)) (le_trans h0 hlt.le) (wLoss_nonneg fl h1)
    (weights_cross fl h0 hlt h1) (h.best ds' L' h'.mem).value (h'.best ds L h.mem).value

theorem ValFirst.mono (fl : FloatLaws F K u) {sols : List Nat → List A → Prop} {q : A → Quality K} {p p' : F}
    {ds ds' : List Nat} {L L' : List A} (h : ValFirst sols (wGain p) (wLoss p) q ds L)
    (h' : ValFirst sols (wGain p') (wLoss p') q ds' L') (h0 : (0 : K) ≤ wGain p)
    (hlt : (wGain p : K) < wGain p') (h1 : (wGain p' : K) ≤ 1) :
    gainOf q L ≤ gainOf q L' ∧ lossOf q L ≤ lossOf q L' :=
  mono_of_opt h0 (wLoss_nonneg fl (le_trans hlt.le h1)) (le_trans h0 hlt.le) (wLoss_nonneg fl h1)
    (weights_cross fl h0 hlt h1) (h.best ds' L' h'.mem) (h'.best ds L h.mem)

/-- Interval property for derivations. -/
theorem LexFirst.interval (fl : FloatLaws F K u) {decs : Decs σ A} {st : List σ} {q : A → Quality K} {p1 p p2 : F}
    {ds1 ds ds2 : List Nat} {L L' : List A} (h1 : LexFirst (Sol decs st) (wGain p1) (wLoss p1) q ds1 L)
    (h2 : LexFirst (Sol decs st) (wGain p2) (wLoss p2) q ds2 L)
    (h : LexFirst (Sol decs st) (wGain p) (wLoss p) q ds L')
    (g0 : (0 : K) ≤ wGain p1) (g1 : (wGain p1 : K) ≤ wGain p) (g2 : (wGain p : K) ≤ wGain p2)
    (g12 : (wGain p1 : K) < wGain p2) (g3 : (wGain p2 : K) ≤ 1) : L' = L := by
  have e := h1.ds_eq h2
  subst e
  have e := LexFirst.between (weights_cone fl g0 g1 g2 g12 g3) h1 h2 h
  subst e
  exact h.mem.unique h1.mem

theorem ValFirst.interval (fl : FloatLaws F K u) {decs : Decs σ A} {st : List σ} {q : A → Quality K} {p1 p p2 : F}
    {ds1 ds ds2 : List Nat} {L L' : List A} (h1 : ValFirst (Sol decs st) (wGain p1) (wLoss p1) q ds1 L)
    (h2 : ValFirst (Sol decs st) (wGain p2) (wLoss p2) q ds2 L)
    (h : ValFirst (Sol decs st) (wGain p) (wLoss p) q ds L')
    (g0 : (0 : K) ≤ wGain p1) (g1 : (wGain p1 : K) ≤ wGain p) (g2 : (wGain p : K) ≤ wGain p2)
    (g12 : (wGain p1 : K) < wGain p2) (g3 : (wGain p2 : K) ≤ 1) : L' = L := by
  have e := h1.ds_eq h2
  subst e
  have e := ValFirst.between (weights_cone fl g0 g1 g2 g12 g3) h1 h2 h
  subst e
  exact h.mem.unique h1.mem

end Lp
