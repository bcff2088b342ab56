import Verif.Proofs.Simulate
import Verif.Proofs.HExact
import Verif.Proofs.Ent

/-!
# Leaves with the same values: hierarchical data
-/

namespace Lp
open Spec
open scoped BigOperators
variable {m leaves : Nat} {parents : List Int} {md : HMeta}

open Classical in
/-- Parts strictly under `g` may be replaced by `g`. -/
theorem merge_cover {root : Nat} (t : IsTree leaves parents root) {L : List Nat} (hL : LeafCover leaves parents L) {g x : Nat}
    (hg : g < parents.length) (hx : x ∈ L) (hu : Under parents g x) (hne : x ≠ g) :
    LeafCover leaves parents (g :: L.filter (fun y => ¬ Under parents g y)) ∧ ∀ y ∈ L, Under parents y g → False := by
  have hsole : ∀ y ∈ L, Under parents y x → y = x := by
    intro y hy hyx
    obtain ⟨l, hl, hxl⟩ := t.exists_leaf (hL.1 x hx)
    obtain ⟨k, _, huniq⟩ := hL.2 l hl
    obtain ⟨kx, hkx⟩ := List.getElem?_of_mem hx
    obtain ⟨ky, hky⟩ := List.getElem?_of_mem hy
    have a1 := huniq kx ⟨x, hkx, hxl⟩
    have a2 := huniq ky ⟨y, hky, hyx.trans hxl⟩
    rw [a1] at hkx
    rw [a2, hkx] at hky
    exact (Option.some.inj hky).symm
  have hno : ∀ y ∈ L, Under parents y g → False := by
    intro y hy hyg
    have := hsole y hy (hyg.trans hu)
    subst this
    exact hne (under_antisymm t hyg hu)
  refine ⟨⟨?_, ?_⟩, hno⟩
  · intro y hy
    rcases List.mem_cons.mp hy with rfl | hy
    · exact hg
    · exact hL.1 y (List.mem_filter.mp hy).1
  · intro l hl
    have h1 := hL.2 l hl
    rw [exactlyOne_countP] at h1 ⊢
    rw [List.countP_cons, List.countP_filter]
    by_cases hgl : Under parents g l
    · rw [if_pos (by simpa using hgl)]
      have : List.countP (fun y => decide (Under parents y l) && decide (¬ Under parents g y)) L = 0 := by
        rw [List.countP_eq_zero]
        intro y hy
        simp only [Bool.and_eq_true, decide_eq_true_eq, not_and, not_not]
        intro hyl
        rcases under_total hgl hyl with h | h
        · exact h
        · exact absurd h (fun h => hno y hy h)
      omega
    · rw [if_neg (by simpa using hgl), Nat.add_zero, ← h1]
      apply List.countP_congr
      intro y _
      simp only [Bool.and_eq_true, decide_eq_true_eq]
      exact ⟨fun h => h.1, fun h => ⟨h, fun h' => hgl (h'.trans h)⟩⟩

variable {F : Type} [FloatP F ℝ]

/-- All leaves under `g` have the same values: no part is strictly under `g`. -/
theorem hBest_leaves (r : RightMeta leaves parents md) (hlt : leaves < parents.length)
    {V : Nat → Nat → ℝ} (h0 : ∀ k l, k < m → l < leaves → 0 ≤ V k l) {q : List (Quality ℝ)}
    (hq : VRep q parents.length (fun h => entQ m V (leavesUnder leaves parents h)))
    (p : F) (ha : (0 : ℝ) ≤ wGain p) (hb : (0 : ℝ) ≤ wLoss p) :
    ∃ (P : HPartition F ℝ) (L : List Nat), hBestPartition q md p = .ok P ∧
      P.parts = L.map (hPartOf md (fun h => entQ m V (leavesUnder leaves parents h))) ∧
      ∀ g, g < parents.length →
        (∀ k l l', k < m → l < leaves → l' < leaves → Under parents g l → Under parents g l' → V k l = V k l') →
        ∀ x ∈ L, Under parents g x → x = g := by
  classical
  obtain ⟨P, ds, L, h1, h2, _, _, h5, h6⟩ := hBest_first r hlt hq p
  refine ⟨P, L, h1, h2, ?_⟩
  intro g hg heq x hx hu
  by_contra hne
  have hL := hSol_leafCover r h5.mem
  obtain ⟨hM, hno⟩ := merge_cover r.tree hL hg hx hu hne
  obtain ⟨M, hMdef⟩ : ∃ M, M = g :: L.filter (fun y => ¬ Under parents g y) := ⟨_, rfl⟩
  rw [← hMdef] at hM
  obtain ⟨ds', M', hs', hp'⟩ := leafCover_hSol r hM
  have hnn : ∀ k < m, ∀ x ∈ leavesUnder leaves parents md.root, 0 ≤ V k x := fun k hk x hx => h0 k x hk (mem_leavesUnder.mp hx).1
  have hgain := ((leafCover_cuts r.tree hL).coarsen (leafCover_cuts r.tree hM) (m := m) (V := V)
    (by
      intro y hy
      by_cases hgy : Under parents g y
      · exact ⟨g, by simp [hMdef], fun l hl => by
          rw [mem_leavesUnder] at hl ⊢
          exact ⟨hl.1, hgy.trans hl.2⟩⟩
      · exact ⟨y, by rw [hMdef]; simp [hy, hgy], Finset.Subset.refl _⟩) hnn).1
  have hloss : lossOf (fun h => entQ m V (leavesUnder leaves parents h)) M ≤ lossOf (fun h => entQ m V (leavesUnder leaves parents h)) L := by
    have hz : (entQ m V (leavesUnder leaves parents g)).loss = 0 := by
      show lossSeries m (leavesUnder leaves parents g) V = 0
      rw [lossSeries_zero_iff (fun k hk x hx => h0 k x hk (mem_leavesUnder.mp hx).1)]
      intro k hk x hx y hy
      rw [mem_leavesUnder] at hx hy
      exact heq k x y hk hx.1 hy.1 hx.2 hy.2
    have hpos : ∀ y, 0 ≤ (entQ m V (leavesUnder leaves parents y)).loss := fun y =>
      lossSeries_nonneg (fun k hk x hx => h0 k x hk (mem_leavesUnder.mp hx).1)
    rw [hMdef]
    unfold lossOf
    rw [List.map_cons, List.sum_cons, hz, zero_add]
    exact List.Sublist.sum_le_sum (List.filter_sublist.map _) (fun a ha => by
      obtain ⟨y, _, rfl⟩ := List.mem_map.mp ha
      exact hpos y)
  have hv : valueOf (wGain p) (wLoss p) (fun h => entQ m V (leavesUnder leaves parents h)) L ≤
      valueOf (wGain p) (wLoss p) (fun h => entQ m V (leavesUnder leaves parents h)) M := by
    unfold valueOf
    have := mul_le_mul_of_nonneg_left hgain ha
    have := mul_le_mul_of_nonneg_left hloss hb
    linarith
  have hvp : valueOf (wGain p) (wLoss p) (fun h => entQ m V (leavesUnder leaves parents h)) M' =
      valueOf (wGain p) (wLoss p) (fun h => entQ m V (leavesUnder leaves parents h)) M := by
    unfold valueOf
    rw [gainOf_perm hp', lossOf_perm hp']
  have hle := h5.best ds' M' hs'
  have href := h6 ds' M' hs' (le_antisymm hle (by rw [hvp]; exact hv))
  obtain ⟨y, hy, hyg⟩ := href g (hp'.mem_iff.mpr (by simp [hMdef]))
  exact hno y hy hyg

end Lp
