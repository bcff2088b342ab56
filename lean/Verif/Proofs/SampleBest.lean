import Verif.Proofs.Samples
import Verif.Props.C15
import Verif.Props.C18
import Verif.Props.C20

/-!
# Best partitions of the concrete tables of `Proofs/Samples.lean`, for the examples beside the theorems
-/

namespace Lp.Sample
open Spec

theorem ok_of_isOk {α : Type} {r : Res α} (h : (match r with | .ok _ => true | .error _ => false) = true) : ∃ a, r = .ok a := by
  cases r with
  | ok a => exact ⟨a, rfl⟩
  | error e => cases h

theorem oBestOk (p : ℚ) : ∃ P, oBestPartition oQ p = .ok P := by
  obtain ⟨P, h⟩ := C15.everyIndexOnce oQ 3 _ oRep p
  exact ⟨P, h.1⟩

theorem hBestOk (p : ℚ) : ∃ P, hBestPartition hQ md p = .ok P := by
  obtain ⟨P, L, h⟩ := C18.cover 4 tree md right (by decide) hQ _ hRep p
  exact ⟨P, h.1⟩

theorem dBestOk (p : ℚ) : ∃ P, dBestPartition dQ md p = .ok P := by
  obtain ⟨P, L, h⟩ := C20.cover 4 tree md right 3 (by decide) (by decide) dQ _ dRep p
  exact ⟨P, h.1⟩

noncomputable def oP (p : ℚ) : OPartition ℚ ℚ := (oBestOk p).choose

noncomputable def hP (p : ℚ) : HPartition ℚ ℚ := (hBestOk p).choose

noncomputable def dP (p : ℚ) : DPartition ℚ ℚ := (dBestOk p).choose

theorem oPok (p : ℚ) : oBestPartition oQ p = .ok (oP p) := (oBestOk p).choose_spec

theorem hPok (p : ℚ) : hBestPartition hQ md p = .ok (hP p) := (hBestOk p).choose_spec

theorem dPok (p : ℚ) : dBestPartition dQ md p = .ok (dP p) := (dBestOk p).choose_spec

theorem same_of {α β : Type} {x y : Res α} {a b : α} {f : α → α → β} {r : β} (hx : x = .ok a) (hy : y = .ok b)
    (h : (do let a ← x; let b ← y; return f a b : Res β) = .ok r) : f a b = r := by
  subst hx; subst hy
  exact Except.ok.inj h

theorem same_parts {α β : Type} {x y : Res α} {a b : α} {f : α → List β} (hx : x = .ok a) (hy : y = .ok b)
    (h : x.map f = y.map f) : f a = f b := by
  subst hx; subst hy
  exact Except.ok.inj h

/-- The three partitioners do different things at 0 and 1, and the middle lies between. -/
theorem different :
    (do let a ← oBestPartition oQ (0 : ℚ); let b ← oBestPartition oQ (1 : ℚ); return a.eqOp b : Res Bool) = .ok false ∧
    (do let a ← hBestPartition hQ md (0 : ℚ); let b ← hBestPartition hQ md (1 : ℚ); return a.eqOp b : Res Bool) = .ok false ∧
    (do let a ← dBestPartition dQ md (0 : ℚ); let b ← dBestPartition dQ md (1 : ℚ); return a.eqOp b : Res Bool) = .ok false := by
  decide +kernel

end Lp.Sample
