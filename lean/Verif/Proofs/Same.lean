import Verif.Proofs.HCover
import Verif.Proofs.DCover
import Verif.Proofs.OPart
import Verif.Spec.Tiling

/-!
# Partitions with the same parts
-/

namespace Lp
open Spec
variable {leaves : Nat} {parents : List Int} {md : HMeta}

theorem allEq_iff {α β : Type} {eq : α → α → Bool} {key : α → β} (hk : ∀ a b, eq a b = true ↔ key a = key b) :
    ∀ l m : List α, ((if l.length ≠ m.length then false else allEq eq l m) = true ↔ l.map key = m.map key) := by
  intro l
  induction l with
  | nil => intro m; cases m <;> simp [allEq]
  | cons a l ih =>
    intro m
    cases m with
    | nil => simp
    | cons b m =>
      have := ih m
      by_cases h : l.length = m.length
      · simp only [ne_eq, h, not_true_eq_false, if_false] at this
        simp [allEq, h, this, hk]
      · simp only [ne_eq, h, not_false_eq_true, if_true] at this
        simp [h]
        intro _ h2
        exact h (by simpa using congrArg List.length h2)

/-- Two tilings with the same set of intervals are the same list. -/
theorem Tiles.set_unique {a b : Nat} {L : List (Nat × Nat)} (h : Tiles a b L) : ∀ {L' : List (Nat × Nat)},
    Tiles a b L' → (∀ I, I ∈ L ↔ I ∈ L') → L = L' := by
  induction h with
  | nil =>
    intro L' _ hs
    cases L' with
    | nil => rfl
    | cons x L' => exact absurd ((hs x).mpr (by simp)) (by simp)
  | @cons a b c L hac hcb ht ih =>
    intro L' h' hs
    cases h' with
    | nil => omega
    | @cons _ _ c' M hac' hcb' ht' =>
      have hc : c = c' := by
        have := (hs (a, c)).mp (by simp)
        rcases List.mem_cons.mp this with e | e
        · simpa using e
        · have := ht'.bounds _ e; simp at this; omega
      subst hc
      rw [ih ht' ?_]
      intro I
      constructor
      · intro hI
        rcases List.mem_cons.mp ((hs I).mp (by simp [hI])) with e | e
        · have := ht.bounds _ hI; subst e; simp at this; omega
        · exact e
      · intro hI
        rcases List.mem_cons.mp ((hs I).mpr (by simp [hI])) with e | e
        · have := ht'.bounds _ hI; subst e; simp at this; omega
        · exact e

open Classical in
theorem above_pos {l : Nat} {L : List Nat} {x : Nat} (hx : x ∈ L) (hu : Under parents x l) : 0 < above parents l L := by
  unfold above
  rw [List.countP_pos_iff]
  exact ⟨x, hx, by simpa using hu⟩

open Classical in
theorem above_cons (l x : Nat) (L : List Nat) : above parents l (x :: L) = above parents l [x] + above parents l L := by
  unfold above
  rw [← List.countP_append]; rfl

/-- Two derivations of the hierarchical system with the same set of nodes are the same. -/
theorem hSol_set_unique (r : RightMeta leaves parents md) {st ds L : List Nat}
    (h : Sol (hDecs leaves md.children) st ds L) : ∀ {ds' L' : List Nat}, Sol (hDecs leaves md.children) st ds' L' →
      (∀ s ∈ st, s < parents.length) → (∀ l, l < leaves → above parents l st ≤ 1) → (∀ x, x ∈ L ↔ x ∈ L') → L = L' := by
  induction h with
  | nil => intro ds' L' h' _ _ _; cases h'; rfl
  | @cons s rest k e succ ds L hk hsol ih =>
    intro ds' L' h' hst hab hset
    cases h' with
    | @cons _ _ k' e' succ' ds2 L2 hk' hsol' =>
      have hs := hst s (by simp)
      obtain ⟨l, hl, hls⟩ := r.tree.exists_leaf hs
      have hone : above parents l [s] = 1 := by
        have h1 := above_pos (parents := parents) (L := [s]) (by simp) hls
        have h2 := hab l hl
        rw [above_cons] at h2; omega
      have hrest : above parents l rest = 0 := by have h2 := hab l hl; rw [above_cons] at h2; omega
      have hstr : ∀ x ∈ rest, x < parents.length := fun x hx => hst x (by simp [hx])
      have habr : ∀ l, l < leaves → above parents l rest ≤ 1 := by
        intro l hl; have h2 := hab l hl; rw [above_cons] at h2; omega
      -- both take the node
      have take : e = [s] → succ = [] → e' = [s] → succ' = [] → e ++ L = e' ++ L2 := by
        rintro rfl rfl rfl rfl
        simp only [List.nil_append] at hsol hsol'
        have hno : ∀ {ds M}, Sol (hDecs leaves md.children) rest ds M → s ∉ M := by
          intro ds M hM hsM
          have := (hSol_cover r hM hstr).2 l hl
          rw [hrest] at this
          have := above_pos (parents := parents) hsM hls
          omega
        have := ih (by simpa using hsol') (by simpa using hstr) (by simpa using habr) (by
          intro x
          have := hset x
          simp only [List.singleton_append, List.mem_cons] at this
          constructor
          · intro hx
            rcases this.mp (Or.inr hx) with rfl | h
            · exact absurd hx (hno hsol)
            · exact h
          · intro hx
            rcases this.mpr (Or.inr hx) with rfl | h
            · exact absurd hx (hno hsol')
            · exact h)
        rw [this]
      by_cases hsl : s < leaves
      · rw [hDecs_leaf hsl] at hk hk'
        cases k with
        | succ k => simp at hk
        | zero =>
          cases k' with
          | succ k' => simp at hk'
          | zero => simp at hk hk'; exact take hk.1.symm hk.2 hk'.1.symm hk'.2
      · obtain ⟨ch, hch, _, hmem⟩ := r.kidsPerm hs
        rw [hDecs_inner hsl hch] at hk hk'
        have hst2 : ∀ x ∈ ch ++ rest, x < parents.length := by
          intro x hx
          rcases List.mem_append.mp hx with hx | hx
          · exact ((hmem x).mp hx).lt
          · exact hstr x hx
        have hno : ∀ {ds M}, Sol (hDecs leaves md.children) (ch ++ rest) ds M → s ∉ M := by
          intro ds M hM hsM
          obtain ⟨_, s', hs', hu⟩ := (hSol_cover r hM hst2).1 s hsM
          rcases List.mem_append.mp hs' with hs' | hs'
          · have hp := (hmem s').mp hs'
            have := under_antisymm r.tree hu (Under.up hp .self)
            subst this
            obtain ⟨d, _, hd⟩ := r.tree.depth
            have := hd _ _ hp
            omega
          · have := above_pos (parents := parents) hs' (hu.trans hls)
            omega
        match k, k', hk, hk' with
        | 0, 0, hk, hk' => simp at hk hk'; exact take hk.1.symm hk.2 hk'.1.symm hk'.2
        | 0, 1, hk, hk' =>
          simp at hk hk'
          obtain ⟨rfl, rfl⟩ := hk
          obtain ⟨rfl, rfl⟩ := hk'
          exact absurd ((hset s).mp (by simp)) (by simpa using hno hsol')
        | 1, 0, hk, hk' =>
          simp at hk hk'
          obtain ⟨rfl, rfl⟩ := hk
          obtain ⟨rfl, rfl⟩ := hk'
          exact absurd ((hset s).mpr (by simp)) (by simpa using hno hsol)
        | 1, 1, hk, hk' =>
          simp at hk hk'
          obtain ⟨rfl, rfl⟩ := hk
          obtain ⟨rfl, rfl⟩ := hk'
          simp only [List.nil_append] at hset ⊢
          refine ih hsol' hst2 ?_ hset
          intro l hl
          have h1 := above_children r hs hsl hch hl
          have h2 := hab l hl
          rw [above_cons] at h2
          have : above parents l (ch ++ rest) = above parents l ch + above parents l rest := by
            unfold above; rw [List.countP_append]
          omega
        | k + 2, _, hk, _ => simp at hk
        | _, k' + 2, _, hk' => simp at hk'

theorem hSol_root_unique (r : RightMeta leaves parents md) {ds ds' L L' : List Nat}
    (h : Sol (hDecs leaves md.children) [md.root] ds L) (h' : Sol (hDecs leaves md.children) [md.root] ds' L')
    (hs : ∀ x, x ∈ L ↔ x ∈ L') : L = L' := by
  refine hSol_set_unique r h h' ?_ ?_ hs
  · intro s hs; simp at hs; subst hs; exact r.tree.rootLt
  · intro l _
    unfold above
    exact List.countP_le_length

/-- The rectangles of a partition of the cells are pairwise different. -/
theorem CellCover.nodup {n : Nat} {L : List Rect} (t : IsTree leaves parents root)
    (h : CellCover leaves parents n L) : L.Nodup := by
  rw [List.nodup_iff_getElem?_ne_getElem?]
  intro i j hij hj he
  have hi : i < L.length := by omega
  obtain ⟨x, hx⟩ : ∃ x, L[j]? = some x := ⟨L[j], by simp [hj]⟩
  have hxi : L[i]? = some x := by rw [he]; exact hx
  obtain ⟨b1, b2, b3⟩ := h.1 x (List.mem_of_getElem? hx)
  obtain ⟨l, hl, hu⟩ := t.exists_leaf b1
  obtain ⟨k, _, hk⟩ := h.2 l x.first hl (by omega)
  have e1 := hk i ⟨x, hxi, hu, le_refl _, b2⟩
  have e2 := hk j ⟨x, hx, hu, le_refl _, b2⟩
  omega

end Lp
