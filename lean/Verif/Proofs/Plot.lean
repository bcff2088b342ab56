import Verif.Model.RPlot
import Verif.Proofs.Group
import Verif.Proofs.Micro
import Mathlib.Data.List.Nodup
import Mathlib.Algebra.BigOperators.Group.List.Basic
import Mathlib.Data.List.Perm.Basic
import Mathlib.Data.List.Perm.Lattice

namespace Lp

/-- The groups of rows that are known up to their order. -/
theorem groupRows_perm {R κ ι B : Type} [DecidableEq κ] {key : R → κ} {rows : List R} {is : List ι} {M : ι → List R} {kf : ι → κ}
    (nd : rows.Nodup) (mem : ∀ r, r ∈ rows ↔ ∃ i ∈ is, r ∈ M i) (hk : ∀ i ∈ is, ∀ r ∈ M i, key r = kf i)
    (hne : ∀ i ∈ is, M i ≠ []) (hnd : ∀ i ∈ is, (M i).Nodup) (hi : (is.map kf).Nodup) (G : κ → List R → B)
    (hG : ∀ k l l', l.Perm l' → G k l = G k l') :
    ((groupRows key rows).map (fun g => G g.1 g.2)).Perm (is.map (fun i => G (kf i) (M i))) := by
  have hd : ((rows.map key).dedup).Perm (is.map kf) := by
    rw [List.perm_ext_iff_of_nodup (List.nodup_dedup _) hi]
    intro k
    rw [List.mem_dedup, List.mem_map, List.mem_map]
    constructor
    · rintro ⟨r, hr, rfl⟩
      obtain ⟨i, hi, hr⟩ := (mem r).mp hr
      exact ⟨i, hi, (hk i hi r hr).symm⟩
    · rintro ⟨i, hi, rfl⟩
      obtain ⟨r, hr⟩ := List.exists_mem_of_ne_nil _ (hne i hi)
      exact ⟨r, (mem r).mpr ⟨i, hi, hr⟩, hk i hi r hr⟩
  unfold groupRows
  rw [List.map_map]
  refine (hd.map _).trans ?_
  rw [List.map_map]
  apply List.Perm.of_eq
  apply List.map_congr_left
  intro i hi'
  simp only [Function.comp_apply]
  apply hG
  rw [List.perm_ext_iff_of_nodup (nd.filter _) (hnd i hi')]
  intro r
  rw [List.mem_filter, decide_eq_true_eq, mem]
  constructor
  · rintro ⟨⟨i', h1, h2⟩, e⟩
    rw [hk i' h1 r h2] at e
    rwa [← List.inj_on_of_nodup_map hi h1 hi' e]
  · intro h
    exact ⟨⟨i, hi', h⟩, hk i hi' r h⟩

theorem rMean_perm {K : Type} [Field K] {l l' : List K} (h : l.Perm l') : rMean l = rMean l' := by
  unfold rMean
  rw [h.sum_eq, h.length_eq]

/-- `melt` of the array of a function. -/
theorem meltArray_rArray {S Y K : Type} [DecidableEq S] [DecidableEq Y] [Field K] (space : List S) (type : List Y) (n : Nat)
    (f : Nat × Nat × Nat → K) :
    meltArray space type (Spec.rArray space.length type.length n f) = melt space type n f := by
  rcases space.eq_nil_or_concat with rfl | ⟨s0, s1, hs⟩
  · simp [meltArray, melt, Spec.rArray]
  rcases type.eq_nil_or_concat with rfl | ⟨y0, y1, hy⟩
  · simp [meltArray, melt, Spec.rArray]
  have h1 : 0 < space.length := by rw [hs]; simp
  have h2 : 0 < type.length := by rw [hy]; simp
  have e : melt space type n f = (Spec.rArray space.length type.length n (fun x =>
      (⟨space.getD x.1 s1, type.getD x.2.1 y1, x.2.2 + 1, f x⟩ : MRow S Y K))).mem := by
    unfold melt Spec.rArray
    dsimp only
    apply List.flatMap_congr
    intro k _
    have hy' : type.zipIdx = (List.range type.length).map (fun j => (type.getD j y1, j)) := by
      apply List.ext_getElem
      · simp
      · intro i a b
        simp at a b
        simp [a]
    have hs' : space.zipIdx = (List.range space.length).map (fun j => (space.getD j s1, j)) := by
      apply List.ext_getElem
      · simp
      · intro i a b
        simp at a b
        simp [a]
    rw [hy', hs', List.flatMap_map]
    apply List.flatMap_congr
    intro j _
    rw [List.map_map]
    rfl
  rw [e, rArray_mem]
  unfold meltArray
  rw [rArray_mem]
  have hz : ∀ (g : Nat → K) (m : Nat), ((List.range m).map g).zipIdx = (List.range m).map (fun p => (g p, p)) := by
    intro g m
    apply List.ext_getElem
    · simp
    · intro i a b
      simp
  rw [hz, List.filterMap_map]
  have : ∀ p ∈ List.range (space.length * type.length * n), (fun x : K × Nat =>
      match space[x.2 % (Spec.rArray space.length type.length n f).d0]?, type[x.2 / (Spec.rArray space.length type.length n f).d0 % (Spec.rArray space.length type.length n f).d1]? with
      | some s, some y => some (⟨s, y, x.2 / ((Spec.rArray space.length type.length n f).d0 * (Spec.rArray space.length type.length n f).d1) + 1, x.1⟩ : MRow S Y K)
      | _, _ => none) (f (p % space.length, p / space.length % type.length, p / (space.length * type.length)), p) =
      some (⟨space.getD (p % space.length) s1, type.getD (p / space.length % type.length) y1, p / (space.length * type.length) + 1,
        f (p % space.length, p / space.length % type.length, p / (space.length * type.length))⟩ : MRow S Y K) := by
    intro p _
    have a1 := Nat.mod_lt p h1
    have a2 := Nat.mod_lt (p / space.length) h2
    simp [Spec.rArray, a1, a2]
  refine (List.filterMap_congr (g := fun p => some (⟨space.getD (p % space.length) s1, type.getD (p / space.length % type.length) y1,
    p / (space.length * type.length) + 1,
    f (p % space.length, p / space.length % type.length, p / (space.length * type.length))⟩ : MRow S Y K)) this).trans ?_
  simp

end Lp
