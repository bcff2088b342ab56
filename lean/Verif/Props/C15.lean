import Verif.Proofs.OPart
import Verif.Base.Hardware
import Verif.Proofs.Samples

/-!
# C15 — the ordered partition is a tiling, whatever the numbers
-/

namespace Lp.C15
open Spec
variable {F K : Type}

/-- For every quality matrix `q` of size `n ≤ 65535` (contents `f`) and every parameter, with any arithmetic,
`computeBestPartition` returns (no fault, no endless loop) and its parts are the intervals of a tiling of
`{0..n-1}`, in order, each with the quality stored for its interval. -/
theorem tiling [LD K] [FloatP F K] (q : UTM (Quality K)) (n : Nat) (f : Nat → Nat → Quality K)
    (hq : q.Rep n f) (p : F) :
    ∃ (P : OPartition F K) (L : List (Nat × Nat)), oBestPartition q p = .ok P ∧ Tiles 0 n L ∧
      P.parts = L.map (fun I => ⟨I.1, I.2, f I.1 I.2⟩) ∧ P.parameter = p := by
  obtain ⟨P, T, C, ds, L, h1, _, h3, h4, _, h6⟩ := oBest_spec hq p
  exact ⟨P, L, h1, oSol_tiles h3.sol 0 rfl (by omega), h4, h6⟩

/-- The same said without the auxiliary notion: every index is in exactly one part. -/
theorem everyIndexOnce [LD K] [FloatP F K] (q : UTM (Quality K)) (n : Nat) (f : Nat → Nat → Quality K)
    (hq : q.Rep n f) (p : F) :
    ∃ P : OPartition F K, oBestPartition q p = .ok P ∧
      (∀ x : Nat, x < n → ∃! k : Nat, ∃ part, P.parts[k]? = some part ∧ part.start ≤ x ∧ (x : Int) ≤ part.end) ∧
      ∀ part ∈ P.parts, 0 ≤ part.start ∧ part.start ≤ part.end ∧ part.end < n := by
  obtain ⟨P, L, h1, h2, h3, _⟩ := tiling q n f hq p
  refine ⟨P, h1, ?_, ?_⟩
  · intro x hx
    obtain ⟨k, ⟨I, hk, hI⟩, hu⟩ := h2.exactlyOne x (by omega) hx
    refine ⟨k, ⟨_, by rw [h3, List.getElem?_map, hk]; rfl, ?_⟩, ?_⟩
    · simp only; omega
    · rintro k' ⟨part, hk', hp⟩
      rw [h3, List.getElem?_map, Option.map_eq_some_iff] at hk'
      obtain ⟨I', hI', rfl⟩ := hk'
      simp only at hp
      exact hu k' ⟨I', hI', by omega, by omega⟩
  · intro part hp
    rw [h3, List.mem_map] at hp
    obtain ⟨I, hI, rfl⟩ := hp
    have := h2.bounds I hI
    simp only
    omega

/-- Hardware arithmetic: a 3×3 matrix full of NaN gains and infinite losses, with a NaN parameter, is still
partitioned. -/
example : ∃ (P : OPartition Float32 Float) (L : List (Nat × Nat)),
    oBestPartition (UTM.mk' 3 (⟨0 / 0, 1 / 0⟩ : Quality Float)) (0 / 0 : Float32) = .ok P ∧ Tiles 0 3 L ∧
      P.parts.map (fun x => (x.start, x.end)) = L.map (fun I => ((I.1 : Int), (I.2 : Int))) := by
  obtain ⟨P, L, h1, h2, h3, _⟩ := tiling _ 3 _
    (UTM.Rep.mk' (show 3 ≤ 65535 by decide) (⟨0 / 0, 1 / 0⟩ : Quality Float)) (0 / 0 : Float32)
  exact ⟨P, L, h1, h2, by rw [h3, List.map_map]; rfl⟩

/-- A quality matrix with a wrapped size is not covered: size 65536 has only 32768 slots and the partitioner reads
outside the vector in its first step. -/
theorem wrapped [LD K] [FloatP F K] (q : Quality K) (p : F) :
    ∃ e, oBestPartition (UTM.mk' 65536 q) p = (.error e : Res (OPartition F K)) := by
  have h1 : UTM.index 65536 65535 65535 = 65535 := by decide
  have h2 : UTM.elements 65536 = 32768 := by decide
  have hget : (UTM.mk' 65536 q).get 65535 65535 = .error .outOfBounds := by
    unfold UTM.get UTM.mk'
    simp only [h1, h2]
    exact vget_err (by rw [List.length_replicate]; omega)
  have hrow : ∀ s : OBest K, obRow (UTM.mk' 65536 q) p 65535 s = .error .outOfBounds := by
    intro s
    unfold obRow
    have hs : (UTM.mk' 65536 q).size - 1 = 65535 := rfl
    rw [hs, hget]
    rfl
  refine ⟨.outOfBounds, ?_⟩
  unfold oBestPartition obLoop
  have hsz : (UTM.mk' 65536 q).size = 65535 + 1 := rfl
  rw [hsz]
  unfold forDown
  simp only [hrow]
  rfl

/-! ## The hypotheses are met by concrete inputs (`Proofs/Samples.lean`) -/

example := everyIndexOnce Sample.oQ 3 _ Sample.oRep (1 / 2 : ℚ)
example := wrapped (⟨1, 2⟩ : Quality ℚ) (1 / 2 : ℚ)

end Lp.C15
