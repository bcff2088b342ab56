import Verif.Proofs.HExact
import Verif.Spec.Float
import Verif.Props.C03
import Verif.Proofs.Samples

/-!
# C19 — the hierarchical partition is optimal and coarsest
-/

namespace Lp.C19
open Spec

/-- For exact qualities and any rounding of the weights `p` and `1-p`: the returned parts are nodes `L` partitioning
the leaves, the reported quality is that of `L`, no other partition of the leaves into nodes has a larger value,
and every one with the same value is a refinement of `L`. -/
theorem optimal {F K : Type} [Field K] [LinearOrder K] [IsStrictOrderedRing K] [FloatP F K]
    (leaves : Nat) (parents : List Int) (md : HMeta)
    (hmd : RightMeta leaves parents md) (hlt : leaves < parents.length)
    (q : List (Quality K)) (Q : Nat → Quality K) (hq : VRep q parents.length Q) (p : F) :
    ∃ (P : HPartition F K) (L : List Nat), hBestPartition q md p = .ok P ∧ LeafCover leaves parents L ∧
      P.parts.map (fun x => (x.h, x.quality)) = L.map (fun h => (h, Q h)) ∧
      P.quality = ⟨gainOf Q L, lossOf Q L⟩ ∧
      ∀ L', LeafCover leaves parents L' →
        valueOf (FloatP.toK p) (FloatP.toK (FloatP.oneSub p)) Q L' ≤
          valueOf (FloatP.toK p) (FloatP.toK (FloatP.oneSub p)) Q L ∧
        (valueOf (FloatP.toK p) (FloatP.toK (FloatP.oneSub p)) Q L' =
          valueOf (FloatP.toK p) (FloatP.toK (FloatP.oneSub p)) Q L → Refines parents L' L) := by
  obtain ⟨P, ds, L, h1, h2, h3, _, h5, h6⟩ := hBest_first hmd hlt hq p
  refine ⟨P, L, h1, hSol_leafCover hmd h5.mem, ?_, h3, ?_⟩
  · rw [h2, List.map_map]; rfl
  · intro L' hL'
    obtain ⟨ds', L'', hs, hp⟩ := leafCover_hSol hmd hL'
    have e : valueOf (FloatP.toK p) (FloatP.toK (FloatP.oneSub p)) Q L' =
        valueOf (FloatP.toK p) (FloatP.toK (FloatP.oneSub p)) Q L'' := by
      unfold valueOf gainOf lossOf
      rw [(hp.map _).sum_eq, (hp.map _).sum_eq]
    rw [e]
    refine ⟨h5.best ds' L'' hs, fun he x hx => h6 ds' L'' hs he x (hp.mem_iff.mpr hx)⟩

/-- With exact parameter arithmetic the criterion is `p*gain-(1-p)*loss`. -/
theorem optimal_exact {K : Type} [Field K] [LinearOrder K] [IsStrictOrderedRing K]
    (leaves : Nat) (parents : List Int) (md : HMeta)
    (hmd : RightMeta leaves parents md) (hlt : leaves < parents.length)
    (q : List (Quality K)) (Q : Nat → Quality K) (hq : VRep q parents.length Q) (p : K) :
    ∃ P : HPartition K K, hBestPartition q md p = .ok P ∧
      ∀ L', LeafCover leaves parents L' →
        p * gainOf Q L' - (1 - p) * lossOf Q L' ≤ p * P.quality.gain - (1 - p) * P.quality.loss := by
  obtain ⟨P, L, h1, _, _, h4, h5⟩ := optimal leaves parents md hmd hlt q Q hq p
  refine ⟨P, h1, fun L' hL' => ?_⟩
  rw [h4]
  exact (h5 L' hL').1

/-! ## A concrete case: the tree with leaves 0-3, inner nodes 4 (above 0,1) and 6 (above 2,3), root 5 -/

/-- Qualities of the nodes. -/
def exQ : List (Quality ℚ) := [⟨0, 0⟩, ⟨0, 0⟩, ⟨0, 0⟩, ⟨0, 0⟩, ⟨3, 1⟩, ⟨8, 7⟩, ⟨2, 3⟩]

/-- At `p = 1/2` the best partition is `{4, 2, 3}`, at `p = 2/3` it is the root. -/
example : (do let md ← mkMeta 4 [4, 4, 6, 6, 5, -1, 5]
              let P ← hBestPartition exQ md (1 / 2 : ℚ)
              return P.parts.map HPart.h : Res (List Nat)) = .ok [4, 2, 3] := by decide +kernel
example : (do let md ← mkMeta 4 [4, 4, 6, 6, 5, -1, 5]
              let P ← hBestPartition exQ md (2 / 3 : ℚ)
              return P.parts.map HPart.h : Res (List Nat)) = .ok [5] := by decide +kernel

/-! ## The hypotheses are met by concrete inputs (`Proofs/Samples.lean`) -/

example := optimal 4 Sample.tree Sample.md Sample.right (by decide) Sample.hQ _ Sample.hRep (1 / 2 : ℚ)
example := optimal_exact 4 Sample.tree Sample.md Sample.right (by decide) Sample.hQ _ Sample.hRep (1 / 2 : ℚ)

end Lp.C19
