import Verif.Proofs.HCover
import Verif.Base.Hardware
import Verif.Props.C03
import Verif.Proofs.Samples

/-!
# C18 — the hierarchical partition covers every leaf exactly once, whatever the numbers
-/

namespace Lp.C18
open Spec
variable {F K : Type}

/-- With right metadata of a hierarchy with at least one inner node, for every table of qualities (one per node),
every parameter and any arithmetic, `computeBestPartition` returns (no fault, no endless recursion); its parts are
nodes `L`, every leaf is below exactly one of them, and every part carries the quality of its node and the number
of leaves below it. -/
theorem cover [LD K] [FloatP F K] (leaves : Nat) (parents : List Int) (md : HMeta)
    (hmd : RightMeta leaves parents md) (hlt : leaves < parents.length)
    (q : List (Quality K)) (Q : Nat → Quality K) (hq : VRep q parents.length Q) (p : F) :
    ∃ (P : HPartition F K) (L : List Nat), hBestPartition q md p = .ok P ∧ LeafCover leaves parents L ∧
      P.parts = L.map (fun h => ⟨h, (leavesUnder leaves parents h).card, Q h⟩) ∧ P.parameter = p := by
  obtain ⟨P, T, A, ds, L, h1, _, h3, h4, _, h6⟩ := hBest_spec hmd hlt hq p
  have hc := hSol_leafCover hmd h3.sol
  refine ⟨P, L, h1, hc, ?_, h6⟩
  rw [h4]
  apply List.map_congr_left
  intro h hh
  unfold hPartOf
  rw [hmd.sizeOf (hc.1 h hh)]

/-- Starting from the parent vector of a hierarchy that satisfies the condition of C03: build the metadata, then
partition. -/
theorem coverTree [LD K] [FloatP F K] (leaves : Nat) (parents : List Int) (root : Nat)
    (t : IsTree leaves parents root) (hb : NearestFirst leaves parents) (hlt : leaves < parents.length)
    (q : List (Quality K)) (hq : q.length = parents.length) (p : F) :
    ∃ (md : HMeta) (P : HPartition F K) (L : List Nat), mkMeta leaves parents = .ok md ∧
      hBestPartition q md p = .ok P ∧ LeafCover leaves parents L ∧ P.parts.map HPart.h = L := by
  obtain ⟨md, h1, _, h3⟩ := C03.right leaves parents root t hb
  obtain ⟨P, L, h4, h5, h6, _⟩ := cover leaves parents md h3 hlt q (fun i => (q[i]?).getD ⟨0, 0⟩)
    ⟨hq, fun i hi => by rw [← hq] at hi; simp [hi]⟩ p
  refine ⟨md, P, L, h1, h4, h5, ?_⟩
  rw [h6, List.map_map]
  exact List.map_id L

/-- Hardware arithmetic with NaN qualities on the tree of `C03`. -/
example : ∃ (md : HMeta) (P : HPartition Float32 Float) (L : List Nat),
    mkMeta 4 [4, 4, 6, 6, 5, -1, 5] = .ok md ∧
      hBestPartition (List.replicate 7 (⟨0 / 0, 1 / 0⟩ : Quality Float)) md (0 / 0 : Float32) = .ok P ∧
      LeafCover 4 [4, 4, 6, 6, 5, -1, 5] L ∧ P.parts.map HPart.h = L :=
  coverTree 4 _ 5
    (.ofCheck (fun h => if h < 4 then 2 else if h = 5 then 0 else 1) (by decide) (by decide) (by decide) (by decide))
    C03.sevenNearest (by decide) _ (by decide) _

/-! ## The hypotheses are met by concrete inputs (`Proofs/Samples.lean`) -/

example := cover 4 Sample.tree Sample.md Sample.right (by decide) Sample.hQ _ Sample.hRep (1 / 2 : ℚ)

end Lp.C18
