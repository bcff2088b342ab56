import Verif.Proofs.HCover

/-!
# Checking concrete partitions
-/

namespace Lp

/-- A node and its ancestors, up to `fuel` of them. -/
def ancestors (parents : List Int) : Nat → Nat → List Nat
  | 0, _ => []
  | fuel + 1, x => x :: match parents[x]? with
    | some p => if 0 ≤ p then ancestors parents fuel p.toNat else []
    | none => []

namespace Spec
variable {leaves : Nat} {parents : List Int}

theorem mem_ancestors {a : Nat} : ∀ {fuel x : Nat}, a ∈ ancestors parents fuel x → Under parents a x := by
  intro fuel
  induction fuel with
  | zero => intro x h; simp [ancestors] at h
  | succ fuel ih =>
    intro x h
    unfold ancestors at h
    rcases List.mem_cons.mp h with rfl | h
    · exact .self
    · cases hp : parents[x]? with
      | none => rw [hp] at h; simp at h
      | some p =>
        rw [hp] at h
        simp only at h
        split at h
        · refine .up (p := p.toNat) ?_ (ih h)
          unfold ParentIs
          rw [hp]
          congr 1
          omega
        · simp at h

theorem ancestors_mem {a : Nat} (d : Nat → Nat) (hd : ∀ h p, ParentIs parents h p → d h = d p + 1) :
    ∀ {fuel x : Nat}, d x < fuel → Under parents a x → a ∈ ancestors parents fuel x := by
  intro fuel
  induction fuel with
  | zero => intro x h; omega
  | succ fuel ih =>
    intro x hx h
    unfold ancestors
    cases h with
    | self => exact List.mem_cons_self
    | @up _ p hp h =>
      have hd' := hd x p hp
      unfold ParentIs at hp
      rw [hp]
      simp only
      rw [if_pos (by omega)]
      exact List.mem_cons_of_mem _ (ih (by simp only [Int.toNat_natCast]; omega) h)

/-- A concrete partition. -/
theorem LeafCover.ofCheck {L : List Nat} (d : Nat → Nat) (fuel : Nat)
    (hd : ∀ h < parents.length, ∀ p < parents.length, ParentIs parents h p → d h = d p + 1)
    (hr : ∀ h < parents.length, ∀ p ∈ parents[h]?, p < parents.length)
    (hf : ∀ l < leaves, d l < fuel) (h1 : ∀ x ∈ L, x < parents.length)
    (h2 : ∀ l < leaves, L.countP (fun x => decide (x ∈ ancestors parents fuel l)) = 1) : LeafCover leaves parents L := by
  classical
  refine ⟨h1, ?_⟩
  intro l hl
  rw [exactlyOne_countP, ← h2 l hl]
  apply List.countP_congr
  intro x _
  simp only [decide_eq_true_eq]
  refine ⟨fun h => ancestors_mem d ?_ (hf l hl) h, mem_ancestors⟩
  intro h p hp
  have hlt : h < parents.length := (List.getElem?_eq_some_iff.mp hp).1
  have := hr h hlt p hp
  exact hd h hlt p (by omega) hp

end Spec
end Lp
