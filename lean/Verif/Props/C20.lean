import Verif.Proofs.DCover
import Verif.Base.Hardware
import Verif.Props.C03
import Verif.Proofs.Samples

/-!
# C20 — the spatiotemporal partition covers every (leaf, slice) exactly once, whatever the numbers
-/

namespace Lp.C20
open Spec
variable {F K : Type}

/-- With right metadata, for every table of qualities (one triangular matrix of size `n` per node), every parameter
and any arithmetic, `computeBestPartition` returns (no fault, no endless recursion); its parts are rectangles `L`
(node × interval of slices), every cell (leaf, slice) is in exactly one of them, and every part carries the quality
of its node and interval and the number of leaves below its node. -/
theorem cover [LD K] [FloatP F K] (leaves : Nat) (parents : List Int) (md : HMeta)
    (hmd : RightMeta leaves parents md) (n : Nat) (h0 : 0 < n) (hn : n ≤ 65535)
    (q : List (UTM (Quality K))) (Q : Nat → Nat → Nat → Quality K) (hq : MRep q parents.length n Q) (p : F) :
    ∃ (P : DPartition F K) (L : List Rect), dBestPartition q md p = .ok P ∧ CellCover leaves parents n L ∧
      P.parts = L.map (fun r => ⟨r.node, (leavesUnder leaves parents r.node).card, r.first, r.last,
        Q r.node r.first r.last⟩) ∧ P.parameter = p := by
  obtain ⟨P, T, C, ds, L, h1, _, h3, h4, _, h6⟩ := dBest_spec hmd hq h0 hn p
  have hc := dSol_cellCover hmd h0 h3.sol
  refine ⟨P, L, h1, hc, ?_, h6⟩
  rw [h4]
  apply List.map_congr_left
  intro r hr
  unfold dPartOf
  rw [hmd.sizeOf (hc.1 r hr).1]

/-- Starting from the parent vector of a hierarchy that satisfies the condition of C03. -/
theorem coverTree [LD K] [FloatP F K] (leaves : Nat) (parents : List Int) (root : Nat)
    (t : IsTree leaves parents root) (hb : NearestFirst leaves parents) (n : Nat) (h0 : 0 < n) (hn : n ≤ 65535)
    (q : List (UTM (Quality K))) (Q : Nat → Nat → Nat → Quality K) (hq : MRep q parents.length n Q) (p : F) :
    ∃ (md : HMeta) (P : DPartition F K) (L : List Rect), mkMeta leaves parents = .ok md ∧
      dBestPartition q md p = .ok P ∧ CellCover leaves parents n L ∧
      P.parts.map (fun x => (⟨x.h, x.start, x.end⟩ : Rect)) = L := by
  obtain ⟨md, h1, _, h3⟩ := C03.right leaves parents root t hb
  obtain ⟨P, L, h4, h5, h6, _⟩ := cover leaves parents md h3 n h0 hn q Q hq p
  refine ⟨md, P, L, h1, h4, h5, ?_⟩
  rw [h6, List.map_map]
  exact List.map_id L

/-- Hardware arithmetic with NaN qualities on the tree of `C03`, 3 slices. -/
example : ∃ (md : HMeta) (P : DPartition Float32 Float) (L : List Rect),
    mkMeta 4 [4, 4, 6, 6, 5, -1, 5] = .ok md ∧
      dBestPartition (List.replicate 7 (UTM.mk' 3 (⟨0 / 0, 1 / 0⟩ : Quality Float))) md (0 / 0 : Float32) = .ok P ∧
      CellCover 4 [4, 4, 6, 6, 5, -1, 5] 3 L ∧ P.parts.map (fun x => (⟨x.h, x.start, x.end⟩ : Rect)) = L :=
  coverTree 4 _ 5
    (.ofCheck (fun h => if h < 4 then 2 else if h = 5 then 0 else 1) (by decide) (by decide) (by decide) (by decide))
    C03.sevenNearest
    3 (by decide) (by decide) _ _ (MRep.replicate (by decide) _) _

/-! ## The hypotheses are met by concrete inputs (`Proofs/Samples.lean`) -/

example := cover 4 Sample.tree Sample.md Sample.right 3 (by decide) (by decide) Sample.dQ _ Sample.dRep (1 / 2 : ℚ)

end Lp.C20
