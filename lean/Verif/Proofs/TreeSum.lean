import Verif.Proofs.Path
import Verif.Proofs.Vec
import Mathlib.Algebra.BigOperators.Group.List.Basic
import Mathlib.Data.Real.Basic

/-!
# Sums pushed from children to parents along the visiting path
-/

namespace Lp
open Spec
variable {leaves : Nat} {parents : List Int} {md : HMeta}

/-- Sum of `w` over the leaves below `h`. -/
noncomputable def leafSum (leaves : Nat) (parents : List Int) (w : Nat → ℝ) (h : Nat) : ℝ :=
  ∑ l ∈ leavesUnder leaves parents h, w l

/-- Contents of the accumulator of node `h` after the nodes `done` have been visited. -/
noncomputable def acc (leaves : Nat) (parents : List Int) (w : Nat → ℝ) (done : List Nat) (h : Nat) : ℝ :=
  if h < leaves then (if h ∈ done then w h else 0)
  else ((kidsIn parents done h).map (leafSum leaves parents w)).sum

theorem acc_nil (w : Nat → ℝ) (h : Nat) : acc leaves parents w [] h = 0 := by
  unfold acc; split <;> simp [kidsIn]

theorem leafSum_leaf (r : RightMeta leaves parents md) (w : Nat → ℝ) {h : Nat} (hl : h < leaves) :
    leafSum leaves parents w h = w h := by
  unfold leafSum; rw [leavesUnder_leaf r.tree hl, Finset.sum_singleton]

/-- When an inner node is reached its accumulator is complete. -/
theorem acc_ready (r : RightMeta leaves parents md) (w : Nat → ℝ) {k h : Nat} (hk : md.path[k]? = some h)
    (hin : ¬ h < leaves) : acc leaves parents w (md.path.take k) h = leafSum leaves parents w h := by
  unfold acc
  rw [if_neg hin, r.kidsTake hk]
  have hnd : (kidsIn parents md.path h).Nodup := r.pathNodup.filter _
  rw [← List.sum_toFinset _ hnd]
  obtain ⟨e1, e2⟩ := leavesUnder_inner r.tree (not_lt.mp hin) (kidsIn parents md.path h).toFinset (by
    intro c
    rw [List.mem_toFinset, mem_kidsIn, r.pathMem]
    exact ⟨fun hc => hc.2, fun hc => ⟨hc.lt, hc⟩⟩)
  unfold leafSum
  rw [e1, Finset.sum_biUnion e2]

theorem acc_leaf_done (r : RightMeta leaves parents md) (w : Nat → ℝ) {done : List Nat} {h : Nat} (hl : h < leaves)
    (hd : h ∈ done) : acc leaves parents w done h = w h := by
  unfold acc; rw [if_pos hl, if_pos hd]

theorem parent_inner (r : RightMeta leaves parents md) {h p : Nat} (hp : ParentIs parents h p) : ¬ p < leaves := by
  intro hl
  exact (r.tree.leaf p (lt_of_lt_of_le hl r.tree.leavesLe)).mp hl ⟨h, hp⟩

/-- Visiting an inner node adds its total to the parent. -/
theorem acc_inner (w : Nat → ℝ) {done : List Nat} {h p : Nat}
    (hin : ¬ h < leaves) (hp : ParentIs parents h p) (hpi : ¬ p < leaves) (x : Nat) :
    acc leaves parents w (done ++ [h]) x =
      vupd (acc leaves parents w done) p (acc leaves parents w done p + leafSum leaves parents w h) x := by
  by_cases e : x = p
  · subst e
    rw [vupd_same]
    unfold acc
    rw [if_neg hpi, if_neg hpi, kidsIn_append_one hp, if_pos rfl]
    simp
  · rw [vupd_ne e]
    unfold acc
    rw [kidsIn_append_one hp, if_neg e, List.append_nil]
    split
    · rename_i hx
      have : x ≠ h := by rintro rfl; exact hin hx
      simp [this]
    · rfl

/-- Visiting a leaf stores its value and adds it to the parent. -/
theorem acc_leaf (r : RightMeta leaves parents md) (w : Nat → ℝ) {done : List Nat} {h p : Nat}
    (hl : h < leaves) (hp : ParentIs parents h p) (hpi : ¬ p < leaves) (x : Nat) :
    acc leaves parents w (done ++ [h]) x =
      vupd (vupd (acc leaves parents w done) h (w h)) p (acc leaves parents w done p + w h) x := by
  by_cases e : x = p
  · subst e
    rw [vupd_same]
    unfold acc
    rw [if_neg hpi, if_neg hpi, kidsIn_append_one hp, if_pos rfl]
    simp [leafSum_leaf r w hl]
  · rw [vupd_ne e]
    by_cases e' : x = h
    · subst e'
      rw [vupd_same, acc_leaf_done r w hl (by simp)]
    · rw [vupd_ne e']
      unfold acc
      rw [kidsIn_append_one hp, if_neg e, List.append_nil]
      simp [e']

end Lp
