import Verif.Proofs.Convex
import Verif.Proofs.Once
import Verif.Spec.Value
import Mathlib.Algebra.BigOperators.Fin

/-!
# Merging parts never lowers gain or loss: partitions given as lists of parts
-/

namespace Lp
open Spec
open scoped BigOperators
variable {A ι : Type} {m : Nat} {V : Nat → ι → ℝ}

/-- Entropy quality of a set of positions. -/
noncomputable def entQ (m : Nat) (V : Nat → ι → ℝ) (s : Finset ι) : Quality ℝ := ⟨gainSeries m s V, lossSeries m s V⟩

theorem gainOf_fin (q : A → Quality ℝ) (L : List A) : gainOf q L = ∑ i : Fin L.length, (q L[i]).gain := by
  unfold gainOf
  rw [← Fin.sum_univ_fun_getElem L (fun x => (q x).gain)]
  rfl

theorem lossOf_fin (q : A → Quality ℝ) (L : List A) : lossOf q L = ∑ i : Fin L.length, (q L[i]).loss := by
  unfold lossOf
  rw [← Fin.sum_univ_fun_getElem L (fun x => (q x).loss)]
  rfl

/-- The position of the only part containing `x`. -/
theorem exactlyOne_fin {P : A → Prop} {L : List A} (h : ExactlyOne P L) :
    ∃ i : Fin L.length, P L[i] ∧ ∀ j : Fin L.length, P L[j] → j = i := by
  obtain ⟨k, ⟨x, hx, hP⟩, hu⟩ := h
  obtain ⟨hk, e⟩ := List.getElem?_eq_some_iff.mp hx
  refine ⟨⟨k, hk⟩, ?_, ?_⟩
  · show P L[k]
    rw [e]; exact hP
  · intro j hj
    exact Fin.ext (hu j.1 ⟨L[j], by simp, hj⟩)

/-- `L` cuts `U` into the sets `cells a`, `a ∈ L`. -/
structure Cuts (cells : A → Finset ι) (L : List A) (U : Finset ι) : Prop where
  ne : ∀ a ∈ L, (cells a).Nonempty
  sub : ∀ a ∈ L, cells a ⊆ U
  one : ∀ x ∈ U, ExactlyOne (fun a => x ∈ cells a) L

theorem Cuts.disj {cells : A → Finset ι} {L : List A} {U : Finset ι} (h : Cuts cells L U) {i j : Fin L.length} (hne : i ≠ j) :
    Disjoint (cells L[i]) (cells L[j]) := by
  classical
  rw [Finset.disjoint_left]
  intro x hi hj
  obtain ⟨k, _, hu⟩ := exactlyOne_fin (h.one x (h.sub _ (List.getElem_mem _) hi))
  exact hne ((hu i hi).trans (hu j hj).symm)

/-- Coarser partitions have at least the gain and at least the loss. -/
theorem Cuts.coarsen {cells : A → Finset ι} {L M : List A} {U : Finset ι} (hL : Cuts cells L U) (hM : Cuts cells M U)
    (hr : ∀ a ∈ L, ∃ b ∈ M, cells a ⊆ cells b) (hv : ∀ k < m, ∀ x ∈ U, 0 ≤ V k x) :
    gainOf (fun a => entQ m V (cells a)) L ≤ gainOf (fun a => entQ m V (cells a)) M ∧
    lossOf (fun a => entQ m V (cells a)) L ≤ lossOf (fun a => entQ m V (cells a)) M := by
  classical
  have hg : ∀ i : Fin L.length, ∃ j : Fin M.length, cells L[i] ⊆ cells M[j] := by
    intro i
    obtain ⟨b, hb, hs⟩ := hr L[i] (List.getElem_mem _)
    obtain ⟨j, hj, e⟩ := List.mem_iff_getElem.mp hb
    exact ⟨⟨j, hj⟩, by show cells L[i] ⊆ cells M[j]; rw [e]; exact hs⟩
  choose g hg using hg
  have hU : ∀ j : Fin M.length, (Finset.univ.filter (fun i => g i = j)).biUnion (fun i => cells L[i]) = cells M[j] := by
    intro j
    ext x
    simp only [Finset.mem_biUnion, Finset.mem_filter, Finset.mem_univ, true_and]
    constructor
    · rintro ⟨i, rfl, hx⟩; exact hg i hx
    · intro hx
      have hxU := hM.sub _ (List.getElem_mem _) hx
      obtain ⟨i, hi, _⟩ := exactlyOne_fin (hL.one x hxU)
      refine ⟨i, ?_, hi⟩
      obtain ⟨k, _, hu⟩ := exactlyOne_fin (hM.one x hxU)
      exact (hu _ (hg i hi)).trans (hu _ hx).symm
  have hd : ∀ j : Fin M.length, ((Finset.univ.filter (fun i => g i = j) : Finset (Fin L.length)) : Set (Fin L.length)).PairwiseDisjoint
      (fun i => cells L[i]) := fun j a _ b _ hab => hL.disj hab
  rw [gainOf_fin, gainOf_fin, lossOf_fin, lossOf_fin,
    ← Finset.sum_fiberwise_of_maps_to (s := Finset.univ) (t := Finset.univ) (g := g) (fun _ _ => Finset.mem_univ _)
      (fun i => (entQ m V (cells L[i])).gain),
    ← Finset.sum_fiberwise_of_maps_to (s := Finset.univ) (t := Finset.univ) (g := g) (fun _ _ => Finset.mem_univ _)
      (fun i => (entQ m V (cells L[i])).loss)]
  have hv' : ∀ j : Fin M.length, ∀ k < m, ∀ i ∈ Finset.univ.filter (fun i => g i = j), ∀ x ∈ cells L[i], 0 ≤ V k x :=
    fun j k hk i _ x hx => hv k hk x (hL.sub _ (List.getElem_mem _) hx)
  constructor
  · refine Finset.sum_le_sum (fun j _ => ?_)
    have := gainSeries_merge (m := m) (V := V) (hd j) (hv' j)
    rw [hU j] at this
    exact this
  · refine Finset.sum_le_sum (fun j _ => ?_)
    have := lossSeries_merge (m := m) (V := V) (hd j) (fun i _ => hL.ne _ (List.getElem_mem _)) (hv' j)
    rw [hU j] at this
    exact this

theorem Cuts.single {cells : A → Finset ι} {a : A} (h : (cells a).Nonempty) : Cuts cells [a] (cells a) where
  ne := by simpa using h
  sub := by simp
  one := by
    classical
    intro x hx
    rw [exactlyOne_countP]
    simp [hx]

/-- The whole has the largest gain and the largest loss. -/
theorem Cuts.whole {cells : A → Finset ι} {L : List A} {a : A} (hL : Cuts cells L (cells a)) (hn : (cells a).Nonempty)
    (hv : ∀ k < m, ∀ x ∈ cells a, 0 ≤ V k x) :
    gainOf (fun a => entQ m V (cells a)) L ≤ (entQ m V (cells a)).gain ∧
    lossOf (fun a => entQ m V (cells a)) L ≤ (entQ m V (cells a)).loss := by
  have := hL.coarsen (Cuts.single hn) (fun b hb => ⟨a, by simp, hL.sub b hb⟩) hv
  simpa using this

/-- Parts that are single values have gain 0 and loss 0. -/
theorem finest_zero {cells : A → Finset ι} {L : List A} (h : ∀ a ∈ L, ∃ x, cells a = {x}) :
    gainOf (fun a => entQ m V (cells a)) L = 0 ∧ lossOf (fun a => entQ m V (cells a)) L = 0 := by
  constructor
  · unfold gainOf
    apply List.sum_eq_zero
    intro x hx
    obtain ⟨a, ha, rfl⟩ := List.mem_map.mp hx
    obtain ⟨y, hy⟩ := h a ha
    simp [entQ, hy, gainSeries_single]
  · unfold lossOf
    apply List.sum_eq_zero
    intro x hx
    obtain ⟨a, ha, rfl⟩ := List.mem_map.mp hx
    obtain ⟨y, hy⟩ := h a ha
    simp [entQ, hy, lossSeries_single]

theorem gainOf_congr {q q' : A → Quality ℝ} {L : List A} (h : ∀ a ∈ L, q a = q' a) : gainOf q L = gainOf q' L := by
  unfold gainOf; rw [List.map_congr_left (fun a ha => by rw [h a ha])]

theorem lossOf_congr {q q' : A → Quality ℝ} {L : List A} (h : ∀ a ∈ L, q a = q' a) : lossOf q L = lossOf q' L := by
  unfold lossOf; rw [List.map_congr_left (fun a ha => by rw [h a ha])]

end Lp

namespace Lp
open Spec
variable {ι : Type} {m : Nat} {V : Nat → ι → ℝ}

/-- A larger set of positions has at least the gain and at least the loss. -/
theorem entQ_mono {s t : Finset ι} (h : s ⊆ t) (hs : s.Nonempty) (hv : ∀ k < m, ∀ x ∈ t, 0 ≤ V k x) :
    (entQ m V s).gain ≤ (entQ m V t).gain ∧ (entQ m V s).loss ≤ (entQ m V t).loss := by
  classical
  by_cases e : s = t
  · subst e; exact ⟨le_refl _, le_refl _⟩
  · have hne : (t \ s).Nonempty := by
      rw [Finset.sdiff_nonempty]
      exact fun h' => e (Finset.Subset.antisymm h h')
    have hc : Cuts (id : Finset ι → Finset ι) [s, t \ s] (id t) := by
      refine ⟨?_, ?_, ?_⟩
      · intro a ha
        simp only [List.mem_cons, List.not_mem_nil, or_false] at ha
        rcases ha with rfl | rfl <;> assumption
      · intro a ha
        simp only [List.mem_cons, List.not_mem_nil, or_false] at ha
        rcases ha with rfl | rfl
        · exact h
        · exact Finset.sdiff_subset
      · intro x hx
        rw [exactlyOne_countP]
        by_cases hxs : x ∈ s
        · simp [hxs]
        · simp only [id] at hx
          simp [hxs, hx]
    have := hc.whole (m := m) (V := V) (hs.mono h) hv
    simp only [id, gainOf_cons, gainOf_nil, lossOf_cons, lossOf_nil, add_zero] at this
    have hv' : ∀ k < m, ∀ x ∈ t \ s, 0 ≤ V k x := fun k hk x hx => hv k hk x (Finset.sdiff_subset hx)
    have h1 : 0 ≤ (entQ m V (t \ s)).gain := gainSeries_nonneg hv'
    have h2 : 0 ≤ (entQ m V (t \ s)).loss := lossSeries_nonneg hv'
    constructor
    · linarith [this.1]
    · linarith [this.2]

end Lp
