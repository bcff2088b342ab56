import Verif.Proofs.Weights
import Verif.Proofs.HExact
import Verif.Props.C24
import Verif.Proofs.SampleBest

/-!
# C25 — equal partitions at two parameters mean the same partition in between
-/

namespace Lp.C25
open Spec
variable {F K : Type} [Field K] [LinearOrder K] [IsStrictOrderedRing K] [FloatP F K] {u : K}

theorem inj_aux {A B : Type} {g : A → B} (hg : ∀ x y, g x = g y → x = y) : ∀ {L M : List A}, L.map g = M.map g → L = M :=
  fun h => List.map_injective_iff.mpr (fun x y => hg x y) h

/-- Ordered: for `0 ≤ p1 < p2 ≤ 1` and `p` between them, if the partitions of `p1` and `p2` have the same parts
then so has the one of `p` (any rounding of `1-p` that is monotone and exact at the ends). -/
theorem ordered (fl : FloatLaws F K u) (q : UTM (Quality K)) (n : Nat) (f : Nat → Nat → Quality K) (hq : q.Rep n f)
    (p1 p p2 : F) (h0 : (0 : K) ≤ FloatP.toK p1) (hle1 : (FloatP.toK p1 : K) ≤ FloatP.toK p)
    (hle2 : (FloatP.toK p : K) ≤ FloatP.toK p2) (hlt : (FloatP.toK p1 : K) < FloatP.toK p2)
    (h1 : (FloatP.toK p2 : K) ≤ 1)
    (P1 P P2 : OPartition F K) (e1 : oBestPartition q p1 = .ok P1) (e : oBestPartition q p = .ok P)
    (e2 : oBestPartition q p2 = .ok P2) (hs : P1.parts = P2.parts) : P.parts = P1.parts := by
  obtain ⟨R1, ds1, L1, a1, a2, _, _, a5⟩ := oBest_lex hq p1
  obtain ⟨R, ds, L, b1, b2, _, _, b5⟩ := oBest_lex hq p
  obtain ⟨R2, ds2, L2, c1, c2, _, _, c5⟩ := oBest_lex hq p2
  rw [C24.res_aux e1 a1, C24.res_aux e2 c1, a2, c2] at hs
  have hs := inj_aux (by rintro ⟨x, y⟩ ⟨x', y'⟩ h; simp [oPartOf] at h; ext <;> simp <;> omega) hs
  subst hs
  rw [C24.res_aux e b1, C24.res_aux e1 a1, a2, b2, a5.interval fl c5 b5 h0 hle1 hle2 hlt h1]

/-- Hierarchical. -/
theorem hierarchical (fl : FloatLaws F K u) (leaves : Nat) (parents : List Int) (md : HMeta)
    (hmd : RightMeta leaves parents md) (hleaf : leaves < parents.length)
    (q : List (Quality K)) (Q : Nat → Quality K) (hq : VRep q parents.length Q)
    (p1 p p2 : F) (h0 : (0 : K) ≤ FloatP.toK p1) (hle1 : (FloatP.toK p1 : K) ≤ FloatP.toK p)
    (hle2 : (FloatP.toK p : K) ≤ FloatP.toK p2) (hlt : (FloatP.toK p1 : K) < FloatP.toK p2)
    (h1 : (FloatP.toK p2 : K) ≤ 1)
    (P1 P P2 : HPartition F K) (e1 : hBestPartition q md p1 = .ok P1) (e : hBestPartition q md p = .ok P)
    (e2 : hBestPartition q md p2 = .ok P2) (hs : P1.parts = P2.parts) : P.parts = P1.parts := by
  obtain ⟨R1, ds1, L1, a1, a2, _, _, a5, _⟩ := hBest_first hmd hleaf hq p1
  obtain ⟨R, ds, L, b1, b2, _, _, b5, _⟩ := hBest_first hmd hleaf hq p
  obtain ⟨R2, ds2, L2, c1, c2, _, _, c5, _⟩ := hBest_first hmd hleaf hq p2
  rw [C24.res_aux e1 a1, C24.res_aux e2 c1, a2, c2] at hs
  have hs := inj_aux (by intro x y h; simp [hPartOf] at h; exact h.1) hs
  subst hs
  rw [C24.res_aux e b1, C24.res_aux e1 a1, a2, b2, a5.interval fl c5 b5 h0 hle1 hle2 hlt h1]

/-- Spatiotemporal. -/
theorem spatiotemporal (fl : FloatLaws F K u) (leaves : Nat) (parents : List Int) (md : HMeta)
    (hmd : RightMeta leaves parents md) (n : Nat) (hn0 : 0 < n) (hn : n ≤ 65535)
    (q : List (UTM (Quality K))) (Q : Nat → Nat → Nat → Quality K) (hq : MRep q parents.length n Q)
    (p1 p p2 : F) (h0 : (0 : K) ≤ FloatP.toK p1) (hle1 : (FloatP.toK p1 : K) ≤ FloatP.toK p)
    (hle2 : (FloatP.toK p : K) ≤ FloatP.toK p2) (hlt : (FloatP.toK p1 : K) < FloatP.toK p2)
    (h1 : (FloatP.toK p2 : K) ≤ 1)
    (P1 P P2 : DPartition F K) (e1 : dBestPartition q md p1 = .ok P1) (e : dBestPartition q md p = .ok P)
    (e2 : dBestPartition q md p2 = .ok P2) (hs : P1.parts = P2.parts) : P.parts = P1.parts := by
  obtain ⟨R1, ds1, L1, a1, a2, _, _, a5⟩ := dBest_first hmd hq hn0 hn p1
  obtain ⟨R, ds, L, b1, b2, _, _, b5⟩ := dBest_first hmd hq hn0 hn p
  obtain ⟨R2, ds2, L2, c1, c2, _, _, c5⟩ := dBest_first hmd hq hn0 hn p2
  rw [C24.res_aux e1 a1, C24.res_aux e2 c1, a2, c2] at hs
  have hs := inj_aux (by
    rintro ⟨x, y, z⟩ ⟨x', y', z'⟩ h; simp [dPartOf] at h; simp; tauto) hs
  subst hs
  rw [C24.res_aux e b1, C24.res_aux e1 a1, a2, b2, a5.interval fl c5 b5 h0 hle1 hle2 hlt h1]

/-- The hypotheses are met by the table of `C16` at `1/2` and `11/20`. -/
example : (do let P1 ← oBestPartition C16.exQ (1 / 2 : ℚ)
              let P2 ← oBestPartition C16.exQ (11 / 20 : ℚ)
              return (decide (P1.parts = P2.parts), P1.parts.length) : Res (Bool × Nat)) = .ok (true, 2) := by
  decide +kernel

/-! ## The hypotheses are met by concrete inputs (`Proofs/Samples.lean`) -/

/-- The partitions at 9/10 and at 1 are the same, so is the one between. -/
example := ordered (exactLaws ℚ) Sample.oQ 3 _ Sample.oRep (9 / 10) (19 / 20) 1 (by decide +kernel) (by decide +kernel) (by decide +kernel) (by decide +kernel) (by decide +kernel) _ _ _ (Sample.oPok _) (Sample.oPok _) (Sample.oPok _)
  (Sample.same_parts (Sample.oPok _) (Sample.oPok _) (by decide +kernel))
example := hierarchical (exactLaws ℚ) 4 Sample.tree Sample.md Sample.right (by decide) Sample.hQ _ Sample.hRep (9 / 10) (19 / 20) 1 (by decide +kernel) (by decide +kernel) (by decide +kernel) (by decide +kernel) (by decide +kernel) _ _ _ (Sample.hPok _) (Sample.hPok _) (Sample.hPok _)
  (Sample.same_parts (Sample.hPok _) (Sample.hPok _) (by decide +kernel))
example := spatiotemporal (exactLaws ℚ) 4 Sample.tree Sample.md Sample.right 3 (by decide) (by decide) Sample.dQ _ Sample.dRep (9 / 10) (19 / 20) 1 (by decide +kernel) (by decide +kernel) (by decide +kernel) (by decide +kernel) (by decide +kernel) _ _ _ (Sample.dPok _) (Sample.dPok _) (Sample.dPok _)
  (Sample.same_parts (Sample.dPok _) (Sample.dPok _) (by decide +kernel))

end Lp.C25
