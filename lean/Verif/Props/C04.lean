import Verif.Proofs.MetaLoop

/-!
# C04 — constructing the metadata never loops for ever
-/

namespace Lp.C04

/-- For every leaf count and every parent vector (cyclic, out of range, empty, ...) the constructor stops: with a
result, or at an access outside a vector. In particular the step budget of the model is never exhausted. -/
theorem terminates (leaves : Nat) (parents : List Int) :
    (∃ md, mkMeta leaves parents = .ok md) ∨ mkMeta leaves parents = .error .outOfBounds := by
  unfold mkMeta
  have hno := pathLoop_noFuel (parents := parents) (leaves + parents.length + 1) 0
    (pathInit leaves parents.length) (pathInit_inv0 _ _ _) (by omega)
  cases h : pathLoop parents (leaves + parents.length + 1) 0 (pathInit leaves parents.length) with
  | error e =>
    rw [h] at hno
    right
    simp only [errBind, Except.error.injEq]
    rcases pathLoop_err _ _ _ _ h with rfl | rfl
    · rfl
    · exact absurd rfl hno
  | ok st =>
    simp only [okBind]
    cases h2 : vget st.path (st.path.length - 1) with
    | error e => right; simp only [errBind, Except.error.injEq]; exact vget_err_eq h2
    | ok r => left; exact ⟨_, rfl⟩

/-- The number of loop iterations never exceeds the number of nodes: any larger step budget gives the same
result, so the outcome is that of the unbounded loop. -/
theorem budgetIrrelevant (leaves : Nat) (parents : List Int) (fuel : Nat) (h : parents.length < fuel) :
    pathLoop parents fuel 0 (pathInit leaves parents.length) =
      pathLoop parents (leaves + parents.length + 1) 0 (pathInit leaves parents.length) := by
  have key : ∀ f g : Nat, f ≤ g → parents.length < f →
      pathLoop parents g 0 (pathInit leaves parents.length) =
        pathLoop parents f 0 (pathInit leaves parents.length) := fun f g hfg hf =>
    pathLoop_mono f g 0 _ hfg (pathLoop_noFuel f 0 _ (pathInit_inv0 _ _ _) (by omega))
  rcases Nat.le_total fuel (leaves + parents.length + 1) with h' | h'
  · exact (key _ _ h' h).symm
  · exact key _ _ h' (by omega)

/-- A cycle: nodes 2 and 3 are each other's parent; the loop runs over all nodes and then leaves the path. -/
example : (mkMeta 2 [2, 2, 3, 2]).map (fun _ => ()) = .error .outOfBounds := by decide
/-- An out-of-range parent. -/
example : (mkMeta 2 [7, 7]).map (fun _ => ()) = .error .outOfBounds := by decide
/-- A tree. -/
example : (mkMeta 3 [3, 3, 4, 4, -1]).map (fun m => (m.root, m.path)) = .ok (4, [0, 1, 2, 3, 4]) := by decide

/-! ## The hypotheses are met by concrete inputs -/

section
open Spec

example := terminates 3 [4, 3, 3, 4, -1]
example := budgetIrrelevant 3 [4, 3, 3, 4, -1] 6 (by decide)

end

end Lp.C04
