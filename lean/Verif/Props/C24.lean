import Verif.Proofs.Weights
import Verif.Proofs.HExact
import Verif.Props.C16
import Verif.Props.C19
import Verif.Props.C21
import Verif.Proofs.SampleBest

/-!
# C24 — gain and loss grow with the parameter
-/

namespace Lp.C24
open Spec
variable {F K : Type} [Field K] [LinearOrder K] [IsStrictOrderedRing K] [FloatP F K] {u : K}

/-- The quality `b` has at least the gain and at least the loss of `a`. -/
def Grows (a b : Quality K) : Prop := a.gain ≤ b.gain ∧ a.loss ≤ b.loss

omit [IsStrictOrderedRing K] [Field K] in
theorem res_aux {α : Type} {x : Res α} {a b : α} (h : x = .ok a) (h' : x = .ok b) : a = b := by
  rw [h] at h'; exact Except.ok.inj h'

/-- Ordered: for `0 ≤ p < p' ≤ 1` (any rounding of `1-p` that is monotone and exact at the ends). -/
theorem ordered (fl : FloatLaws F K u) (q : UTM (Quality K)) (n : Nat) (f : Nat → Nat → Quality K) (hq : q.Rep n f)
    (p p' : F) (h0 : (0 : K) ≤ FloatP.toK p) (hlt : (FloatP.toK p : K) < FloatP.toK p') (h1 : (FloatP.toK p' : K) ≤ 1)
    (P P' : OPartition F K) (e : oBestPartition q p = .ok P) (e' : oBestPartition q p' = .ok P') :
    Grows P.quality P'.quality := by
  obtain ⟨R, ds, L, a1, _, a3, _, a5⟩ := oBest_lex hq p
  obtain ⟨R', ds', L', b1, _, b3, _, b5⟩ := oBest_lex hq p'
  rw [res_aux e a1, res_aux e' b1, a3, b3]
  exact a5.mono fl b5 h0 hlt h1

/-- Hierarchical. -/
theorem hierarchical (fl : FloatLaws F K u) (leaves : Nat) (parents : List Int) (md : HMeta)
    (hmd : RightMeta leaves parents md) (hleaf : leaves < parents.length)
    (q : List (Quality K)) (Q : Nat → Quality K) (hq : VRep q parents.length Q)
    (p p' : F) (h0 : (0 : K) ≤ FloatP.toK p) (hlt : (FloatP.toK p : K) < FloatP.toK p') (h1 : (FloatP.toK p' : K) ≤ 1)
    (P P' : HPartition F K) (e : hBestPartition q md p = .ok P) (e' : hBestPartition q md p' = .ok P') :
    Grows P.quality P'.quality := by
  obtain ⟨R, ds, L, a1, _, a3, _, a5, _⟩ := hBest_first hmd hleaf hq p
  obtain ⟨R', ds', L', b1, _, b3, _, b5, _⟩ := hBest_first hmd hleaf hq p'
  rw [res_aux e a1, res_aux e' b1, a3, b3]
  exact a5.mono fl b5 h0 hlt h1

/-- Spatiotemporal. -/
theorem spatiotemporal (fl : FloatLaws F K u) (leaves : Nat) (parents : List Int) (md : HMeta)
    (hmd : RightMeta leaves parents md) (n : Nat) (hn0 : 0 < n) (hn : n ≤ 65535)
    (q : List (UTM (Quality K))) (Q : Nat → Nat → Nat → Quality K) (hq : MRep q parents.length n Q)
    (p p' : F) (h0 : (0 : K) ≤ FloatP.toK p) (hlt : (FloatP.toK p : K) < FloatP.toK p') (h1 : (FloatP.toK p' : K) ≤ 1)
    (P P' : DPartition F K) (e : dBestPartition q md p = .ok P) (e' : dBestPartition q md p' = .ok P') :
    Grows P.quality P'.quality := by
  obtain ⟨R, ds, L, a1, _, a3, _, a5⟩ := dBest_first hmd hq hn0 hn p
  obtain ⟨R', ds', L', b1, _, b3, _, b5⟩ := dBest_first hmd hq hn0 hn p'
  rw [res_aux e a1, res_aux e' b1, a3, b3]
  exact a5.mono fl b5 h0 hlt h1

/-- The hypotheses are met, with different partitions, by the table of `C16`. -/
example : ∃ P P' : OPartition ℚ ℚ, oBestPartition C16.exQ (1 / 2 : ℚ) = .ok P ∧
    oBestPartition C16.exQ (9 / 10 : ℚ) = .ok P' ∧ Grows P.quality P'.quality := by
  obtain ⟨P, _, h, _⟩ := C16.optimal C16.exQ 3 C16.exF C16.exRep (1 / 2 : ℚ)
  obtain ⟨P', _, h', _⟩ := C16.optimal C16.exQ 3 C16.exF C16.exRep (9 / 10 : ℚ)
  exact ⟨P, P', h, h', ordered (exactLaws ℚ) _ 3 _ C16.exRep _ _ (by norm_num) (by norm_num) (by norm_num) P P' h h'⟩
example : (do let md ← mkMeta 4 [4, 4, 6, 6, 5, -1, 5]
              let P ← hBestPartition C19.exQ md (1 / 2 : ℚ)
              let P' ← hBestPartition C19.exQ md (2 / 3 : ℚ)
              return (P.quality, P'.quality) : Res (Quality ℚ × Quality ℚ)) = .ok (⟨3, 1⟩, ⟨8, 7⟩) := by decide +kernel

/-! ## The hypotheses are met by concrete inputs (`Proofs/Samples.lean`) -/

example := hierarchical (exactLaws ℚ) 4 Sample.tree Sample.md Sample.right (by decide) Sample.hQ _ Sample.hRep 0 1 (by decide +kernel) (by decide +kernel) (by decide +kernel) _ _ (Sample.hPok 0) (Sample.hPok 1)
example := spatiotemporal (exactLaws ℚ) 4 Sample.tree Sample.md Sample.right 3 (by decide) (by decide) Sample.dQ _ Sample.dRep 0 1 (by decide +kernel) (by decide +kernel) (by decide +kernel) _ _ (Sample.dPok 0) (Sample.dPok 1)

end Lp.C24
