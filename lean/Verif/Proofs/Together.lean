import Verif.Proofs.Copies
import Verif.Proofs.Resolution

/-!
# Neighbouring slices with the same values: ordered data
-/

namespace Lp
open Spec
open scoped BigOperators

/-- Exchanging cells in pairs: once the second is replaced by the first, once the first by the second. -/
theorem copying_pairs {ι : Type} [DecidableEq ι] {U : Finset ι} {A B : ι → Prop} [DecidablePred A] [DecidablePred B] {τ : ι → ι}
    (hA : ∀ x ∈ U, A x → B (τ x) ∧ τ (τ x) = x ∧ τ x ∈ U ∧ ¬ B x)
    (hB : ∀ x ∈ U, B x → A (τ x) ∧ τ (τ x) = x ∧ τ x ∈ U ∧ ¬ A x) :
    Copying 2 U (fun s x => if s = 0 then (if B x then τ x else x) else (if A x then τ x else x)) where
  pos := by norm_num
  maps := by
    intro s _ x hx
    split
    · split
      · rename_i h; exact (hB x hx h).2.2.1
      · exact hx
    · split
      · rename_i h; exact (hA x hx h).2.2.1
      · exact hx
  count := by
    intro y hy
    have key : ∀ (A B : ι → Prop) [DecidablePred A] [DecidablePred B], (∀ x ∈ U, A x → B (τ x) ∧ τ (τ x) = x ∧ τ x ∈ U ∧ ¬ B x) →
        (∀ x ∈ U, B x → A (τ x) ∧ τ (τ x) = x ∧ τ x ∈ U ∧ ¬ A x) →
        (U.filter (fun x => (if B x then τ x else x) = y)).card = if A y then 2 else if B y then 0 else 1 := by
      intro A B _ _ hA hB
      by_cases hAy : A y
      · rw [if_pos hAy]
        obtain ⟨h1, h2, h3, h4⟩ := hA y hy hAy
        have : U.filter (fun x => (if B x then τ x else x) = y) = {y, τ y} := by
          ext x
          simp only [Finset.mem_filter, Finset.mem_insert, Finset.mem_singleton]
          constructor
          · rintro ⟨hx, e⟩
            split at e
            · rename_i hbx
              right; rw [← e, (hB x hx hbx).2.1]
            · exact .inl e
          · rintro (rfl | rfl)
            · exact ⟨hy, by rw [if_neg h4]⟩
            · exact ⟨h3, by rw [if_pos h1, h2]⟩
        rw [this, Finset.card_pair]
        intro e
        rw [← e] at h1
        exact h4 h1
      · rw [if_neg hAy]
        by_cases hBy : B y
        · rw [if_pos hBy, Finset.card_eq_zero, Finset.filter_eq_empty_iff]
          intro x hx e
          split at e
          · rename_i hbx
            rw [← e] at hAy
            exact hAy (hB x hx hbx).1
          · rename_i hbx
            rw [e] at hbx
            exact hbx hBy
        · rw [if_neg hBy, Finset.card_eq_one]
          refine ⟨y, ?_⟩
          ext x
          simp only [Finset.mem_filter, Finset.mem_singleton]
          constructor
          · rintro ⟨hx, e⟩
            split at e
            · rename_i hbx
              rw [← e] at hAy
              exact absurd (hB x hx hbx).1 hAy
            · exact e
          · rintro rfl
            exact ⟨hy, by rw [if_neg hBy]⟩
    rw [Finset.sum_range_succ, Finset.sum_range_one]
    simp only [if_true, one_ne_zero, if_false]
    rw [key A B hA hB, key B A hB hA]
    by_cases hAy : A y
    · have := (hA y hy hAy).2.2.2
      simp [hAy, this]
    · by_cases hBy : B y
      · simp [hAy, hBy]
      · simp [hAy, hBy]

/-- The slice that takes the place of slice `x`. -/
def same2 (i s x : Nat) : Nat := if s = 0 then (if x = i + 1 then i else x) else (if x = i then i + 1 else x)
/-- Where a part that began at `a` begins. -/
def edge2 (i s a : Nat) : Nat := if a = i + 1 then (if s = 0 then i + 2 else i) else a

theorem edge2_le {i s a x : Nat} : edge2 i s a ≤ x ↔ a ≤ same2 i s x := by
  unfold edge2 same2; split_ifs <;> omega
theorem lt_edge2 {i s a x : Nat} : x < edge2 i s a ↔ same2 i s x < a := by
  rw [← not_le, edge2_le, not_le]
theorem edge2_mono {i s a b : Nat} (h : a ≤ b) : edge2 i s a ≤ edge2 i s b := by
  unfold edge2; split_ifs <;> omega
theorem edge2_zero {i s : Nat} : edge2 i s 0 = 0 := by simp [edge2]
theorem edge2_top {i s n : Nat} (h : i + 1 < n) : edge2 i s n = n := by unfold edge2; split_ifs <;> omega

theorem same2_copying {n i : Nat} (h : i + 1 < n) : Copying 2 (oCells (0, n - 1)) (same2 i) := by
  have := copying_pairs (U := oCells (0, n - 1)) (A := fun x => x = i) (B := fun x => x = i + 1)
    (τ := fun x => if x = i then i + 1 else i)
    (by intro x hx hA; subst hA; simp [oCells]; omega) (by intro x hx hB; subst hB; simp [oCells]; omega)
  have e : (fun s x => if s = 0 then (if x = i + 1 then (if x = i then i + 1 else i) else x) else
      (if x = i then (if x = i then i + 1 else i) else x)) = same2 i := by
    funext s x
    unfold same2
    split_ifs <;> omega
  rwa [e] at this

/-- The interval after the exchange. -/
def pull2 (i s : Nat) (I : Nat × Nat) : Option (Nat × Nat) :=
  if edge2 i s I.1 < edge2 i s (I.2 + 1) then some (edge2 i s I.1, edge2 i s (I.2 + 1) - 1) else none

theorem pull2_tiles {i s a b : Nat} {M : List (Nat × Nat)} (h : Tiles a b M) :
    Tiles (edge2 i s a) (edge2 i s b) (M.filterMap (pull2 i s)) := by
  induction h with
  | nil a => exact .nil _
  | @cons a b e M h1 h2 h3 ih =>
    have hle := h3.le
    by_cases hlt : edge2 i s a < edge2 i s (e + 1)
    · rw [List.filterMap_cons_some (by unfold pull2; rw [if_pos hlt])]
      have : edge2 i s (e + 1) ≤ edge2 i s b := edge2_mono (by omega)
      refine .cons ?_ ?_ ?_
      · show edge2 i s a ≤ edge2 i s (e + 1) - 1; omega
      · show edge2 i s (e + 1) - 1 < _; omega
      · show Tiles (edge2 i s (e + 1) - 1 + 1) _ _
        rwa [Nat.sub_add_cancel (by omega)]
    · rw [List.filterMap_cons_none (by unfold pull2; rw [if_neg hlt])]
      have : edge2 i s a ≤ edge2 i s (e + 1) := edge2_mono (by omega)
      rw [show edge2 i s a = edge2 i s (e + 1) by omega]
      exact ih

theorem mem_pre2 {n i s : Nat} (h : i + 1 < n) {I : Nat × Nat} (hI : I.2 < n) {x : Nat} :
    x ∈ preCells (oCells (0, n - 1)) (same2 i) (oCells I) s ↔ edge2 i s I.1 ≤ x ∧ x < edge2 i s (I.2 + 1) := by
  unfold preCells
  rw [Finset.mem_filter, edge2_le, lt_edge2]
  simp only [oCells, Finset.mem_Icc]
  constructor
  · rintro ⟨_, h1, h2⟩; exact ⟨h1, by omega⟩
  · rintro ⟨h1, h2⟩
    refine ⟨?_, h1, by omega⟩
    unfold same2 at h1 h2
    split_ifs at h1 h2 <;> omega

variable {F : Type} [FloatP F ℝ] {m n : Nat}

/-- The best ordered partition does not separate slices `i` and `i + 1` with the same values, unless they are zero. -/
theorem oBest_together {V : Nat → Nat → ℝ} (h0 : ∀ k i, k < m → i < n → 0 ≤ V k i) {q : UTM (Quality ℝ)}
    (hq : q.Rep n (fun i j => entQ m V (oCells (i, j)))) (p : F) (ha : (0 : ℝ) ≤ wGain p) (hb : (0 : ℝ) ≤ wLoss p)
    {i : Nat} (hi : i + 1 < n) (heq : ∀ k < m, V k (i + 1) = V k i) (hpos : ∃ k < m, 0 < V k i) :
    ∃ (P : OPartition F ℝ) (L : List (Nat × Nat)), oBestPartition q p = .ok P ∧
      P.parts = L.map (oPartOf (fun i j => entQ m V (oCells (i, j)))) ∧ ∀ I ∈ L, I.2 ≠ i := by
  obtain ⟨P, ds, L, h1, h2, _, _, h5⟩ := oBest_lex hq p
  refine ⟨P, L, h1, h2, ?_⟩
  have ht := oSol_tiles h5.mem 0 rfl (by omega)
  have hcut := tiles_cuts ht (by omega)
  have hU : ∀ x ∈ oCells (0, n - 1), x < n := fun x hx => by simp only [oCells, Finset.mem_Icc] at hx; omega
  have key := LexFirst.copies (cells := oCells) (Ls := fun s => L.filterMap (pull2 i s)) ha hb h5 (same2_copying hi)
    (by
      intro k hk s _ x _
      unfold same2
      split_ifs
      · subst_vars; exact (heq k hk).symm
      · rfl
      · subst_vars; exact heq k hk
      · rfl)
    (fun k hk x hx => h0 k x hk (hU x hx)) hcut.sub
    (by
      intro s _ f hf
      have aux : ∀ M : List (Nat × Nat), (∀ I ∈ M, I.2 < n) → ((M.filterMap (pull2 i s)).map (fun x => f (oCells x))).sum =
          (M.map (fun x => f (preCells (oCells (0, n - 1)) (same2 i) (oCells x) s))).sum := by
        intro M hM
        induction M with
        | nil => rfl
        | cons I M ih =>
          have hI := hM I (by simp)
          have ih := ih (fun J hJ => hM J (by simp [hJ]))
          rw [List.map_cons, List.sum_cons, ← ih]
          by_cases hlt : edge2 i s I.1 < edge2 i s (I.2 + 1)
          · rw [List.filterMap_cons_some (by unfold pull2; rw [if_pos hlt]), List.map_cons, List.sum_cons]
            congr 2
            ext x
            rw [mem_pre2 hi hI]
            simp only [oCells, Finset.mem_Icc]
            omega
          · rw [List.filterMap_cons_none (by unfold pull2; rw [if_neg hlt])]
            have : preCells (oCells (0, n - 1)) (same2 i) (oCells I) s = ∅ := by
              ext x
              rw [mem_pre2 hi hI]
              constructor
              · intro h; omega
              · intro h; simp at h
            rw [this, hf, zero_add]
      exact aux L (fun I hI => (ht.bounds I hI).2.2))
    (by
      intro s _
      have := pull2_tiles (i := i) (s := s) ht
      rw [edge2_zero, edge2_top hi] at this
      obtain ⟨ds', hs'⟩ := tiles_oSol this
      exact ⟨ds', _, hs', List.Perm.refl _⟩)
  intro I hI e
  obtain ⟨k, hk, hVk⟩ := hpos
  have hb := ht.bounds I hI
  have hs := key I hI k hk 0 (by norm_num) 1 (by norm_num)
  have hsub : insert i (preCells (oCells (0, n - 1)) (same2 i) (oCells I) 1) ⊆ preCells (oCells (0, n - 1)) (same2 i) (oCells I) 0 := by
    intro x hx
    rw [Finset.mem_insert, mem_pre2 hi hb.2.2] at hx
    rw [mem_pre2 hi hb.2.2]
    unfold edge2 at hx ⊢
    split_ifs at hx ⊢ <;> omega
  have hnot : i ∉ preCells (oCells (0, n - 1)) (same2 i) (oCells I) 1 := by
    rw [mem_pre2 hi hb.2.2, e]
    rintro ⟨_, h2⟩
    simp [edge2] at h2
  have hle := Finset.sum_le_sum_of_subset_of_nonneg (f := V k) hsub
    (fun x hx _ => h0 k x hk (hU x (Finset.mem_filter.mp hx).1))
  rw [Finset.sum_insert hnot] at hle
  linarith

end Lp
