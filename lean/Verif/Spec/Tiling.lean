import Mathlib.Logic.ExistsUnique

/-!
# Specification: interval partitions of an ordered set
-/

namespace Lp.Spec

/-- `Tiles a b L`: the list `L` of closed intervals `(first, last)` cuts `{a, ..., b-1}` into non-empty
consecutive intervals, in order. -/
inductive Tiles : Nat → Nat → List (Nat × Nat) → Prop
  | nil (a : Nat) : Tiles a a []
  | cons {a b c : Nat} {L : List (Nat × Nat)} : a ≤ c → c < b → Tiles (c + 1) b L → Tiles a b ((a, c) :: L)

theorem Tiles.le {a b : Nat} {L : List (Nat × Nat)} (h : Tiles a b L) : a ≤ b := by
  induction h <;> omega

/-- Every interval of a tiling lies inside. -/
theorem Tiles.bounds {a b : Nat} {L : List (Nat × Nat)} (h : Tiles a b L) :
    ∀ x ∈ L, a ≤ x.1 ∧ x.1 ≤ x.2 ∧ x.2 < b := by
  induction h with
  | nil => simp
  | cons h1 h2 h3 ih =>
    intro x hx
    rcases List.mem_cons.mp hx with rfl | hx
    · exact ⟨Nat.le_refl _, h1, h2⟩
    · have := ih x hx; omega

/-- Sanity check of the definition: every element of `{a..b-1}` lies in exactly one interval of a tiling: it is in
the interval at exactly one position of the list. -/
theorem Tiles.exactlyOne {a b : Nat} {L : List (Nat × Nat)} (h : Tiles a b L) (x : Nat) (h1 : a ≤ x)
    (h2 : x < b) : ∃! k : Nat, ∃ I, L[k]? = some I ∧ I.1 ≤ x ∧ x ≤ I.2 := by
  induction h with
  | nil => omega
  | @cons a b c L hac hcb ht ih =>
    by_cases hx : x ≤ c
    · refine ⟨0, ⟨(a, c), rfl, h1, hx⟩, ?_⟩
      rintro k ⟨I, hk, hI⟩
      cases k with
      | zero => rfl
      | succ k =>
        simp only [List.getElem?_cons_succ] at hk
        have := ht.bounds I (List.mem_of_getElem? hk)
        omega
    · obtain ⟨k, ⟨I, hk, hI⟩, hu⟩ := ih (by omega) h2
      refine ⟨k + 1, ⟨I, by simpa using hk, hI⟩, ?_⟩
      rintro k' ⟨I', hk', hI'⟩
      cases k' with
      | zero => simp at hk'; subst hk'; simp at hI'; omega
      | succ k' =>
        simp only [List.getElem?_cons_succ] at hk'
        rw [hu k' ⟨I', hk', hI'⟩]

/-- Conversely nothing outside `{a..b-1}` is covered. -/
theorem Tiles.outside {a b : Nat} {L : List (Nat × Nat)} (h : Tiles a b L) (x : Nat) (hx : x < a ∨ b ≤ x) :
    ¬ ∃ I ∈ L, I.1 ≤ x ∧ x ≤ I.2 := by
  rintro ⟨I, hI, h1⟩
  have := h.bounds I hI
  omega

end Lp.Spec
