import Verif.Proofs.Tree

/-!
# Deciding `Under` for concrete hierarchies (used in examples)
-/

namespace Lp.Spec

/-- Walks up from `h`, at most `f` steps, looking for `a`. -/
def upCheck (parents : List Int) (a : Nat) : Nat → Nat → Bool
  | 0, h => a == h
  | f + 1, h => a == h || ((List.range parents.length).any fun p => decide (ParentIs parents h p) && upCheck parents a f p)

theorem upCheck_under {parents : List Int} {a : Nat} : ∀ {f h : Nat}, upCheck parents a f h = true → Under parents a h := by
  intro f
  induction f with
  | zero => intro h e; rw [upCheck, beq_iff_eq] at e; subst e; exact .self
  | succ f ih =>
    intro h e
    rw [upCheck, Bool.or_eq_true, beq_iff_eq, List.any_eq_true] at e
    rcases e with rfl | ⟨p, _, hp⟩
    · exact .self
    · rw [Bool.and_eq_true, decide_eq_true_eq] at hp
      exact .up hp.1 (ih hp.2)

theorem under_upCheck {leaves root : Nat} {parents : List Int} (t : IsTree leaves parents root) {d : Nat → Nat}
    (hd : ∀ h, h < parents.length → ∀ p, p < parents.length → ParentIs parents h p → d p < d h) {a : Nat} :
    ∀ {f h : Nat}, d h ≤ f → Under parents a h → upCheck parents a f h = true := by
  intro f
  induction f with
  | zero =>
    intro h hf hu
    cases hu with
    | self => simp [upCheck]
    | up hp _ => have := hd _ hp.lt _ (t.parent_lt hp) hp; omega
  | succ f ih =>
    intro h hf hu
    rw [upCheck, Bool.or_eq_true, beq_iff_eq, List.any_eq_true]
    cases hu with
    | self => exact Or.inl rfl
    | up hp hu =>
      have := hd _ hp.lt _ (t.parent_lt hp) hp
      exact Or.inr ⟨_, List.mem_range.mpr (t.parent_lt hp), by rw [Bool.and_eq_true, decide_eq_true_eq]; exact ⟨hp, ih (by omega) hu⟩⟩

/-- A finite check. -/
theorem under_check {leaves root : Nat} {parents : List Int} (t : IsTree leaves parents root) (d : Nat → Nat) (B : Nat)
    (hd : ∀ h, h < parents.length → ∀ p, p < parents.length → ParentIs parents h p → d p < d h)
    (hB : ∀ h, h < parents.length → d h ≤ B) {a h : Nat} (hh : h < parents.length) :
    Under parents a h ↔ upCheck parents a B h = true :=
  ⟨under_upCheck t hd (hB h hh), upCheck_under⟩

/-- The leaves of a node, by the check. -/
theorem leavesUnder_check {leaves root : Nat} {parents : List Int} (t : IsTree leaves parents root) (d : Nat → Nat) (B : Nat)
    (hd : ∀ h, h < parents.length → ∀ p, p < parents.length → ParentIs parents h p → d p < d h)
    (hB : ∀ h, h < parents.length → d h ≤ B) (a : Nat) :
    leavesUnder leaves parents a = (Finset.range leaves).filter (fun l => upCheck parents a B l = true) := by
  ext l
  rw [mem_leavesUnder, Finset.mem_filter, Finset.mem_range]
  have := t.leavesLe
  exact and_congr_right fun h => under_check t d B hd hB (by omega)

end Lp.Spec
