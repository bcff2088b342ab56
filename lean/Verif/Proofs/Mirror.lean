import Verif.Spec.Mirror
import Verif.Proofs.Curve
import Verif.Proofs.SearchRel
import Verif.Proofs.Series
import Verif.Props.C38

/-!
# Reversed ordered data, and searches that depend only on the curve
-/

namespace Lp
open Spec

theorem Spec.Tiles.snoc {a b c : Nat} {L : List (Nat × Nat)} (h : Tiles a b L) (hbc : b ≤ c) : Tiles a (c + 1) (L ++ [(b, c)]) := by
  induction h with
  | nil a => exact .cons hbc (by omega) (.nil _)
  | @cons a b' d L h1 h2 _ ih => exact .cons h1 (by omega) (ih hbc)

theorem Spec.Tiles.mirror {n a b : Nat} {L : List (Nat × Nat)} (h : Tiles a b L) (hb : b ≤ n) :
    Tiles (n - b) (n - a) (mirror n L) := by
  induction h with
  | nil a => exact .nil _
  | @cons a b c L h1 h2 h3 ih =>
    have h4 := (ih hb).snoc (c := n - 1 - a) (by omega)
    unfold Spec.mirror at h4 ⊢
    rw [List.map_cons, List.reverse_cons]
    have e1 : n - 1 - a + 1 = n - a := by omega
    have e2 : n - (c + 1) = n - 1 - c := by omega
    rw [e1, e2] at h4
    exact h4

theorem mirror_mirror {n a b : Nat} {L : List (Nat × Nat)} (h : Tiles a b L) (hb : b ≤ n) : mirror n (mirror n L) = L := by
  unfold mirror
  rw [List.map_reverse, List.reverse_reverse, List.map_map]
  conv_rhs => rw [← List.map_id L]
  apply List.map_congr_left
  intro x hx
  have := h.bounds x hx
  unfold Function.comp Spec.flip
  simp only [id]
  ext <;> simp only <;> omega

section
variable {F K : Type} [Field K] [LinearOrder K] [IsStrictOrderedRing K] [FloatP F K]

omit [LinearOrder K] [IsStrictOrderedRing K] in
theorem gainOf_mirror {n : Nat} {f f' : Nat → Nat → Quality K} (hf : ∀ i j, i ≤ j → j < n → f' i j = f (n - 1 - j) (n - 1 - i))
    {L : List (Nat × Nat)} (h : Tiles 0 n L) :
    gainOf (fun I : Nat × Nat => f I.1 I.2) (mirror n L) = gainOf (fun I : Nat × Nat => f' I.1 I.2) L ∧
    lossOf (fun I : Nat × Nat => f I.1 I.2) (mirror n L) = lossOf (fun I : Nat × Nat => f' I.1 I.2) L := by
  unfold gainOf lossOf mirror
  rw [List.map_reverse, List.map_reverse, List.sum_reverse, List.sum_reverse, List.map_map, List.map_map]
  constructor <;> congr 1 <;> apply List.map_congr_left <;> intro x hx <;> have hx := h.bounds x hx <;>
    simp only [Function.comp, Spec.flip, hf x.1 x.2 hx.2.1 hx.2.2]

omit [IsStrictOrderedRing K] in
/-- Two lists none of which is worse than the other have the same gain and loss, if gains and losses are compared in two
tables that give corresponding lists the same gain and loss. -/
theorem lexLe_antisymm {A : Type} {a b : K} {q q' : A → Quality K} {L M L' M' : List A}
    (hM : gainOf q M = gainOf q' L' ∧ lossOf q M = lossOf q' L') (hM' : gainOf q' M' = gainOf q L ∧ lossOf q' M' = lossOf q L)
    (h1 : LexLe a b q M L) (h2 : LexLe a b q' M' L') : gainOf q L = gainOf q' L' ∧ lossOf q L = lossOf q' L' := by
  unfold LexLe valueOf at h1 h2
  rw [hM.1, hM.2] at h1
  rw [hM'.1, hM'.2] at h2
  rcases h1 with h1 | ⟨e1, h1⟩
  · rcases h2 with h2 | ⟨e2, _⟩
    · exact absurd h1 h2.asymm
    · rw [e2] at h1; exact absurd h1 (lt_irrefl _)
  · rcases h2 with h2 | ⟨e2, h2⟩
    · rw [e1] at h2; exact absurd h2 (lt_irrefl _)
    · rcases h1 with h1 | ⟨h1, h1'⟩
      · rcases h2 with h2 | ⟨h2, _⟩
        · exact absurd h1 h2.asymm
        · rw [h2] at h1; exact absurd h1 (lt_irrefl _)
      · rcases h2 with h2 | ⟨h2, h2'⟩
        · rw [h1] at h2; exact absurd h2 (lt_irrefl _)
        · exact ⟨h2, le_antisymm h1' h2'⟩

/-- The best partitions of a table and of the mirrored table. -/
theorem oBest_mirror {q q' : UTM (Quality K)} {n : Nat} {f f' : Nat → Nat → Quality K} (hq : q.Rep n f) (hq' : q'.Rep n f')
    (hf : ∀ i j, i ≤ j → j < n → f' i j = f (n - 1 - j) (n - 1 - i)) (p : F) :
    ∃ (P P' : OPartition F K) (L L' : List (Nat × Nat)), oBestPartition q p = .ok P ∧ oBestPartition q' p = .ok P' ∧
      Tiles 0 n L ∧ Tiles 0 n L' ∧ P.parts = L.map (oPartOf f) ∧ P'.parts = L'.map (oPartOf f') ∧
      P.quality = ⟨gainOf (fun x : Nat × Nat => f x.1 x.2) L, lossOf (fun x : Nat × Nat => f x.1 x.2) L⟩ ∧
      P'.quality = P.quality ∧
      gainOf (fun x : Nat × Nat => f x.1 x.2) (mirror n L') = gainOf (fun x : Nat × Nat => f x.1 x.2) L ∧
      lossOf (fun x : Nat × Nat => f x.1 x.2) (mirror n L') = lossOf (fun x : Nat × Nat => f x.1 x.2) L := by
  obtain ⟨P, ds, L, h1, h2, h3, _, h5⟩ := oBest_lex hq p
  obtain ⟨P', ds', L', g1, g2, g3, _, g5⟩ := oBest_lex hq' p
  have t := oSol_tiles h5.mem 0 rfl (by omega)
  have t' := oSol_tiles g5.mem 0 rfl (by omega)
  have hf' : ∀ i j, i ≤ j → j < n → f i j = f' (n - 1 - j) (n - 1 - i) := by
    intro i j hij hj
    rw [hf _ _ (by omega) (by omega)]
    congr 1 <;> omega
  have m := Tiles.mirror t (n := n) (le_refl _)
  have m' := Tiles.mirror t' (n := n) (le_refl _)
  simp only [Nat.sub_self, Nat.sub_zero] at m m'
  have e' := gainOf_mirror hf t'
  have e := gainOf_mirror hf' t
  obtain ⟨ds1, s1⟩ := tiles_oSol m'
  obtain ⟨ds2, s2⟩ := tiles_oSol m
  have key := lexLe_antisymm e' e (h5.best _ _ s1) (g5.best _ _ s2)
  refine ⟨P, P', L, L', h1, g1, t, t', h2, g2, h3, ?_, by rw [e'.1, key.1], by rw [e'.2, key.2]⟩
  rw [g3, h3, key.1, key.2]

/-- Equal partitions have equal qualities. -/
theorem isPartitioner_sameQ {P T : Type} {ops : PartOps F K P T} (h : IsPartitioner ops) (p p' : F) (X X' : P)
    (e : ops.best p = .ok X) (e' : ops.best p' = .ok X') (hs : ops.same X X' = true) : ops.quality X = ops.quality X' := by
  cases h with
  | ordered q n f hq =>
    obtain ⟨R, ds, L, a1, a2, a3, _, a5⟩ := oBest_lex hq p
    obtain ⟨R', ds', L', b1, b2, b3, _, b5⟩ := oBest_lex hq p'
    obtain rfl := C24.res_aux e a1
    obtain rfl := C24.res_aux e' b1
    have hk : ∀ x y : OPart K, OPart.eqOp x y = true ↔ (x.start, x.end) = (y.start, y.end) := by
      intro a b; simp [OPart.eqOp]
    have := (allEq_iff hk _ _).mp hs
    rw [a2, b2, List.map_map, List.map_map] at this
    have hL : L = L' := by
      refine List.map_injective_iff.mpr ?_ this
      intro x y h
      simp only [Function.comp, oPartOf, Prod.mk.injEq, Int.natCast_inj] at h
      exact Prod.ext h.1 h.2
    change X.quality = X'.quality
    rw [a3, b3, hL]
  | hierarchical leaves parents md q Q hmd hlt hq =>
    obtain ⟨R, ds, L, a1, a2, a3, _, a5, _⟩ := hBest_first hmd hlt hq p
    obtain ⟨R', ds', L', b1, b2, b3, _, b5, _⟩ := hBest_first hmd hlt hq p'
    obtain rfl := C24.res_aux e a1
    obtain rfl := C24.res_aux e' b1
    have hk : ∀ x y : HPart K, HPart.eqOp x y = true ↔ (x.size, x.h) = (y.size, y.h) := by
      intro a b; simp [HPart.eqOp]
    have := (allEq_iff hk _ _).mp hs
    rw [a2, b2, List.map_map, List.map_map] at this
    have hL : L = L' := by
      refine List.map_injective_iff.mpr ?_ this
      intro x y h
      simp only [Function.comp, hPartOf, Prod.mk.injEq] at h
      exact h.2
    change X.quality = X'.quality
    rw [a3, b3, hL]
  | spatiotemporal leaves parents md n q Q hmd h0 hn hq =>
    obtain ⟨R, ds, L, a1, a2, a3, _, a5⟩ := dBest_first hmd hq h0 hn p
    obtain ⟨R', ds', L', b1, b2, b3, _, b5⟩ := dBest_first hmd hq h0 hn p'
    obtain rfl := C24.res_aux e a1
    obtain rfl := C24.res_aux e' b1
    have hr := (C38.spatiotemporal leaves parents md hmd n h0 hn q q Q Q hq hq p p' X X' e e').mp hs
    have r1 : C38.rects X = {r | r ∈ L} := by ext r; unfold C38.rects; rw [a2]; simp [dPartOf]
    have r2 : C38.rects X' = {r | r ∈ L'} := by ext r; unfold C38.rects; rw [b2]; simp [dPartOf]
    rw [r1, r2] at hr
    have hp : L.Perm L' := (List.perm_ext_iff_of_nodup (Lp.CellCover.nodup hmd.tree (dSol_cellCover hmd h0 a5.mem))
      (Lp.CellCover.nodup hmd.tree (dSol_cellCover hmd h0 b5.mem))).mpr (fun r => Set.ext_iff.mp hr r)
    change X.quality = X'.quality
    rw [a3, b3]
    unfold gainOf lossOf
    rw [(hp.map _).sum_eq, (hp.map _).sum_eq]

/-- The parameter stored in a partition. -/
theorem isPartitioner_param {P T : Type} {ops : PartOps F K P T} (h : IsPartitioner ops) (p : F) (X : P)
    (e : ops.best p = .ok X) : ops.param X = p := by
  obtain ⟨B, so⟩ := isPartitioner_ops h
  rw [so.best] at e
  obtain rfl := Except.ok.inj e
  exact so.param p

/-- Two partitioners whose best partitions have the same quality for every parameter are related. -/
theorem opsRel_curve {P P' T T' : Type} {ops : PartOps F K P T} {ops' : PartOps F K P' T'} (h : IsPartitioner ops)
    (h' : IsPartitioner ops')
    (hq : ∀ p X X', ops.best p = .ok X → ops'.best p = .ok X' → ops'.quality X' = ops.quality X) :
    OpsRel (fun X X' => ∃ p, ops.best p = .ok X ∧ ops'.best p = .ok X') ops ops' := by
  obtain ⟨B, so⟩ := isPartitioner_ops h
  obtain ⟨B', so'⟩ := isPartitioner_ops h'
  refine ⟨?_, ?_, ?_, ?_⟩
  · intro p
    rw [so.best, so'.best]
    exact ⟨p, so.best p, so'.best p⟩
  · rintro a a' b b' ⟨p, a1, a2⟩ ⟨p', b1, b2⟩
    have key : ops.same a b = true ↔ ops.quality a = ops.quality b :=
      ⟨isPartitioner_sameQ h p p' a b a1 b1, (isPartitioner_curve h).det p p' a b a1 b1⟩
    have key' : ops'.same a' b' = true ↔ ops'.quality a' = ops'.quality b' :=
      ⟨isPartitioner_sameQ h' p p' a' b' a2 b2, (isPartitioner_curve h').det p p' a' b' a2 b2⟩
    rw [Bool.eq_iff_iff, key, key', hq p a a' a1 a2, hq p' b b' b1 b2]
  · rintro a a' ⟨p, a1, a2⟩
    rw [isPartitioner_param h p a a1, isPartitioner_param h' p a' a2]
  · rintro a a' ⟨p, a1, a2⟩
    exact hq p a a' a1 a2

end
end Lp
