import Verif.Spec.Cover
import Mathlib.Data.List.Perm.Basic
import Mathlib.Data.List.Nodup

/-!
# Counting occurrences
-/

namespace Lp
open Spec
variable {A C : Type}

theorem exactlyOne_countP {P : A → Prop} [DecidablePred P] {L : List A} :
    ExactlyOne P L ↔ L.countP (fun x => decide (P x)) = 1 := by
  induction L with
  | nil =>
    simp only [List.countP_nil, Nat.zero_ne_one, iff_false]
    rintro ⟨k, ⟨x, hx, _⟩, _⟩
    simp at hx
  | cons a L ih =>
    by_cases ha : P a
    · rw [List.countP_cons_of_pos (by simpa using ha)]
      simp only [Nat.add_eq_right, List.countP_eq_zero, decide_eq_true_eq]
      constructor
      · rintro ⟨k, ⟨x, hx, hP⟩, hu⟩ y hy hPy
        obtain ⟨j, hj⟩ := List.getElem?_of_mem hy
        have h0 := hu 0 ⟨a, rfl, ha⟩
        have h1 := hu (j + 1) ⟨y, by simpa using hj, hPy⟩
        omega
      · intro h
        refine ⟨0, ⟨a, rfl, ha⟩, ?_⟩
        rintro k ⟨x, hx, hP⟩
        cases k with
        | zero => rfl
        | succ k => simp only [List.getElem?_cons_succ] at hx; exact absurd hP (h x (List.mem_of_getElem? hx))
    · rw [List.countP_cons_of_neg (by simpa using ha), ← ih]
      constructor
      · rintro ⟨k, ⟨x, hx, hP⟩, hu⟩
        cases k with
        | zero => simp at hx; subst hx; exact absurd hP ha
        | succ k =>
          refine ⟨k, ⟨x, by simpa using hx, hP⟩, ?_⟩
          rintro j ⟨y, hy, hPy⟩
          have := hu (j + 1) ⟨y, by simpa using hy, hPy⟩
          omega
      · rintro ⟨k, ⟨x, hx, hP⟩, hu⟩
        refine ⟨k + 1, ⟨x, by simpa using hx, hP⟩, ?_⟩
        rintro j ⟨y, hy, hPy⟩
        cases j with
        | zero => simp at hy; subst hy; exact absurd hPy ha
        | succ j => simp only [List.getElem?_cons_succ] at hy; rw [hu j ⟨y, hy, hPy⟩]

theorem ExactlyOne.perm {P : A → Prop} {L M : List A} (h : L.Perm M) : ExactlyOne P L ↔ ExactlyOne P M := by
  classical
  rw [exactlyOne_countP, exactlyOne_countP, h.countP_eq]

/-- Sorting the elements of a list into disjoint classes. -/
theorem perm_flatMap_filter (R : C → A → Prop) [∀ c, DecidablePred (R c)] :
    ∀ (cs : List C) (M : List A), cs.Nodup →
      (∀ a ∈ M, ∃ c ∈ cs, R c a) → (∀ a ∈ M, ∀ c ∈ cs, ∀ c' ∈ cs, R c a → R c' a → c = c') →
      M.Perm (cs.flatMap (fun c => M.filter (fun a => decide (R c a)))) := by
  intro cs
  induction cs with
  | nil =>
    intro M _ h _
    cases M with
    | nil => simp
    | cons a M => obtain ⟨c, hc, _⟩ := h a (by simp); simp at hc
  | cons c cs ih =>
    intro M hn h hu
    rw [List.nodup_cons] at hn
    rw [List.flatMap_cons]
    refine (List.filter_append_perm (fun a => decide (R c a)) M).symm.trans ?_
    apply List.Perm.append_left
    refine (ih (M.filter (fun a => !decide (R c a))) hn.2 ?_ ?_).trans ?_
    · intro a ha
      rw [List.mem_filter] at ha
      obtain ⟨c', hc', hR⟩ := h a ha.1
      rcases List.mem_cons.mp hc' with rfl | hc'
      · simp [hR] at ha
      · exact ⟨c', hc', hR⟩
    · intro a ha c1 h1 c2 h2
      exact hu a (List.mem_filter.mp ha).1 c1 (by simp [h1]) c2 (by simp [h2])
    · rw [List.flatMap_congr]
      intro c' hc'
      rw [List.filter_filter]
      apply List.filter_congr
      intro a ha
      by_cases hR : R c' a
      · have : ¬ R c a := fun h' => by
          have := hu a ha c (by simp) c' (by simp [hc']) h' hR
          subst this
          exact hn.1 hc'
        simp [hR, this]
      · simp [hR]

end Lp
