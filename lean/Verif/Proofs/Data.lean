import Verif.Proofs.Containers
import Verif.Spec.Data

/-!
# The containers hold the data they were given
-/

namespace Lp
open Spec
variable {K : Type}

theorem flat3 {I J k : Nat} (hk : k < I * J) : k / J < I ∧ k % J < J ∧ k / J * J + k % J = k := by
  have hJ : 0 < J := by
    rcases Nat.eq_zero_or_pos J with rfl | h
    · simp at hk
    · exact h
  refine ⟨(Nat.div_lt_iff_lt_mul hJ).mpr hk, Nat.mod_lt _ hJ, ?_⟩
  rw [Nat.mul_comm]; exact Nat.div_add_mod k J

theorem flat4 {I J Z k : Nat} (hk : k < I * J * Z) :
    k / Z / J < I ∧ k / Z % J < J ∧ k % Z < Z ∧ (k / Z / J * J + k / Z % J) * Z + k % Z = k := by
  obtain ⟨h1, h2, h3⟩ := flat3 hk
  obtain ⟨g1, g2, g3⟩ := flat3 h1
  exact ⟨g1, g2, h2, by rw [g3, h3]⟩

theorem OValuesN1.Holds.data {c : OValuesN1 K} {O : Nat} {f : Nat → K} (h : c.Holds O f) :
    OData c.toOValues 1 O (fun _ => f) :=
  ⟨h.vsize, h.osize, fun k _ => h.series k⟩

theorem OValuesN2.Holds.data {c : OValuesN2 K} {V O : Nat} {f : Nat × Nat → K} (h : c.Holds V O f) :
    OData c.toOValues V O (fun k o => f (k, o)) :=
  ⟨h.vsize, h.osize, fun _ hk => h.series hk⟩

theorem OValuesN3.Holds.data {c : OValuesN3 K} {I J O : Nat} {f : Nat × Nat × Nat → K} (h : c.Holds I J O f) :
    OData c.toOValues (I * J) O (fun k o => f (k / J, k % J, o)) :=
  ⟨h.vsize, h.osize, fun k hk => by
    obtain ⟨h1, h2, h3⟩ := flat3 hk
    have := h.series h1 h2
    rw [h3] at this
    exact this⟩

theorem OValuesN4.Holds.data {c : OValuesN4 K} {I J Z O : Nat} {f : Nat × Nat × Nat × Nat → K} (h : c.Holds I J Z O f) :
    OData c.toOValues (I * J * Z) O (fun k o => f (k / Z / J, k / Z % J, k % Z, o)) :=
  ⟨h.vsize, h.osize, fun k hk => by
    obtain ⟨h1, h2, h3, h4⟩ := flat4 hk
    have := h.series h1 h2 h3
    rw [h4] at this
    exact this⟩

theorem HValuesN1.Holds.data {c : HValuesN1 K} {L : Nat} {md : HMeta} {f : Nat → K} (h : c.Holds L md f) :
    HData c.toHValues 1 L (fun _ => f) :=
  ⟨h.vsize, fun k _ _ hh => h.value k hh⟩

theorem HValuesN2.Holds.data {c : HValuesN2 K} {L V : Nat} {md : HMeta} {f : Nat × Nat → K} (h : c.Holds L V md f) :
    HData c.toHValues V L (fun k l => f (l, k)) :=
  ⟨h.vsize, fun _ _ hk hh => h.value hh hk⟩

theorem HValuesN3.Holds.data {c : HValuesN3 K} {L I J : Nat} {md : HMeta} {f : Nat × Nat × Nat → K}
    (h : c.Holds L I J md f) : HData c.toHValues (I * J) L (fun k l => f (l, k / J, k % J)) :=
  ⟨h.vsize, fun k l hk hh => by
    obtain ⟨h1, h2, h3⟩ := flat3 hk
    have := h.value hh h1 h2
    rw [h3] at this
    exact this⟩

theorem HValuesN4.Holds.data {c : HValuesN4 K} {L I J Z : Nat} {md : HMeta} {f : Nat × Nat × Nat × Nat → K}
    (h : c.Holds L I J Z md f) : HData c.toHValues (I * J * Z) L (fun k l => f (l, k / Z / J, k / Z % J, k % Z)) :=
  ⟨h.vsize, fun k l hk hh => by
    obtain ⟨h1, h2, h3, h4⟩ := flat4 hk
    have := h.value hh h1 h2 h3
    rw [h4] at this
    exact this⟩

theorem DValuesN2.Holds.data {c : DValuesN2 K} {L O : Nat} {md : HMeta} {f : Nat × Nat → K} (h : c.Holds L O md f) :
    DData c.toDValues 1 L O (fun _ => f) :=
  ⟨h.vsize, h.osize, fun k _ _ hh => h.series k hh⟩

theorem DValuesN3.Holds.data {c : DValuesN3 K} {L V O : Nat} {md : HMeta} {f : Nat × Nat × Nat → K}
    (h : c.Holds L V O md f) : DData c.toDValues V L O (fun k x => f (x.1, k, x.2)) :=
  ⟨h.vsize, h.osize, fun _ _ hk hh => h.series hh hk⟩

theorem DValuesN4.Holds.data {c : DValuesN4 K} {L I J O : Nat} {md : HMeta} {f : Nat × Nat × Nat × Nat → K}
    (h : c.Holds L I J O md f) : DData c.toDValues (I * J) L O (fun k x => f (x.1, k / J, k % J, x.2)) :=
  ⟨h.vsize, h.osize, fun k l hk hh => by
    obtain ⟨h1, h2, h3⟩ := flat3 hk
    have := h.series hh h1 h2
    rw [h3] at this
    exact this⟩

end Lp
