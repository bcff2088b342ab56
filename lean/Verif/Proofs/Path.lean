import Verif.Proofs.Tree
import Mathlib.Data.List.Nodup
import Mathlib.Data.List.Perm.Subperm
import Mathlib.Data.List.Range

/-!
# Facts about the visiting path of right metadata
-/

namespace Lp
open Spec
variable {leaves : Nat} {parents : List Int} {md : HMeta}

/-- The nodes of a list whose parent is `h`. -/
def kidsIn (parents : List Int) (l : List Nat) (h : Nat) : List Nat :=
  l.filter (fun c => decide (parents[c]? = some (h : Int)))

theorem mem_kidsIn {l : List Nat} {h c : Nat} : c ∈ kidsIn parents l h ↔ c ∈ l ∧ ParentIs parents c h := by
  unfold kidsIn ParentIs; rw [List.mem_filter]; simp

theorem kidsIn_append_one {l : List Nat} {x px : Nat} (hp : ParentIs parents x px) (h : Nat) :
    kidsIn parents (l ++ [x]) h = kidsIn parents l h ++ (if h = px then [x] else []) := by
  unfold kidsIn
  rw [List.filter_append]
  congr 1
  unfold ParentIs at hp
  by_cases e : h = px
  · subst e; simp [hp]
  · rw [if_neg e]
    simp only [List.filter_cons, List.filter_nil, hp]
    rw [if_neg]
    simp only [decide_eq_true_eq]
    intro he
    exact e (by have := Option.some.inj he; omega)

namespace Spec.RightMeta

theorem pathPerm (r : RightMeta leaves parents md) : md.path.Perm (List.range parents.length) := by
  rw [List.perm_ext_iff_of_nodup r.pathNodup List.nodup_range]
  intro a
  rw [r.pathMem, List.mem_range]

theorem pathLen (r : RightMeta leaves parents md) : md.path.length = parents.length := by
  rw [r.pathPerm.length_eq, List.length_range]

theorem at_ (r : RightMeta leaves parents md) {k : Nat} (hk : k < parents.length) :
    ∃ h, md.path[k]? = some h ∧ h < parents.length := by
  have : k < md.path.length := by rw [r.pathLen]; exact hk
  refine ⟨md.path[k], List.getElem?_eq_getElem this, (r.pathMem _).mp (List.getElem_mem this)⟩

theorem pos (r : RightMeta leaves parents md) {h : Nat} (hh : h < parents.length) :
    ∃ k, k < parents.length ∧ md.path[k]? = some h := by
  obtain ⟨k, hk⟩ := List.getElem?_of_mem ((r.pathMem h).mpr hh)
  refine ⟨k, ?_, hk⟩
  have := (List.getElem?_eq_some_iff.mp hk).1
  rwa [r.pathLen] at this

theorem inj (r : RightMeta leaves parents md) {j k h : Nat} (h1 : md.path[j]? = some h)
    (h2 : md.path[k]? = some h) : j = k :=
  (List.getElem?_inj (List.getElem?_eq_some_iff.mp h1).1 r.pathNodup).mp (by rw [h1, h2])

theorem leafIff (r : RightMeta leaves parents md) {k h : Nat} (hk : md.path[k]? = some h) :
    h < leaves ↔ k < leaves := by
  constructor
  · intro hl
    have := r.inj hk (r.pathLeaves h hl)
    omega
  · intro hl
    have := r.pathLeaves k hl
    rw [hk] at this
    have := Option.some.inj this
    omega

theorem last (r : RightMeta leaves parents md) : md.path[parents.length - 1]? = some md.root := by
  have h0 : 0 < parents.length := by have := r.tree.rootLt; omega
  obtain ⟨h, hk, hl⟩ := r.at_ (show parents.length - 1 < parents.length by omega)
  by_cases e : h = md.root
  · rwa [e] at hk
  · obtain ⟨p, hpl, hp⟩ := r.tree.other h hl e
    obtain ⟨j, hj, hj'⟩ := r.pos hpl
    have := r.pathOrder _ _ _ _ hk hj' hp
    omega

theorem par (r : RightMeta leaves parents md) {k h : Nat} (hk : md.path[k]? = some h)
    (hlt : k + 1 < parents.length) :
    ∃ p, ParentIs parents h p ∧ p < parents.length ∧ md.parentOf h = .ok p ∧ p ∉ md.path.take (k + 1) := by
  have hl : h < parents.length := (r.pathMem h).mp (List.mem_of_getElem? hk)
  have hne : h ≠ md.root := by
    rintro rfl
    have := r.inj hk r.last
    omega
  obtain ⟨p, hpl, hp⟩ := r.tree.other h hl hne
  refine ⟨p, hp, hpl, ?_, ?_⟩
  · unfold HMeta.parentOf
    rw [r.parentsEq, vget_eq_ok.mpr hp]
    simp only [okBind, toIdx_nat]
  · intro hm
    obtain ⟨j, hj⟩ := List.getElem?_of_mem hm
    have hjl : j < k + 1 := by
      have := (List.getElem?_eq_some_iff.mp hj).1
      rw [List.length_take] at this; omega
    rw [List.getElem?_take_of_lt hjl] at hj
    have := r.pathOrder _ _ _ _ hk hj hp
    omega

theorem take_succ {k h : Nat} (hk : md.path[k]? = some h) : md.path.take (k + 1) = md.path.take k ++ [h] := by
  rw [List.take_add_one, hk]; rfl

theorem notMem_take (r : RightMeta leaves parents md) {k h : Nat} (hk : md.path[k]? = some h) :
    h ∉ md.path.take k := by
  intro hm
  obtain ⟨j, hj⟩ := List.getElem?_of_mem hm
  have hjl : j < k := by
    have := (List.getElem?_eq_some_iff.mp hj).1
    rw [List.length_take] at this; omega
  rw [List.getElem?_take_of_lt hjl] at hj
  have := r.inj hj hk
  omega

/-- When a node is visited all its children have been visited. -/
theorem kidsTake (r : RightMeta leaves parents md) {k h : Nat} (hk : md.path[k]? = some h) :
    kidsIn parents (md.path.take k) h = kidsIn parents md.path h := by
  have : md.path = md.path.take k ++ md.path.drop k := (List.take_append_drop k md.path).symm
  conv_rhs => rw [this]
  unfold kidsIn
  rw [List.filter_append]
  have : (md.path.drop k).filter (fun c => decide (parents[c]? = some (h : Int))) = [] := by
    rw [List.filter_eq_nil_iff]
    intro c hc hpar
    simp only [decide_eq_true_eq] at hpar
    obtain ⟨j, hj⟩ := List.getElem?_of_mem hc
    rw [List.getElem?_drop] at hj
    have := r.pathOrder _ _ _ _ hj hk hpar
    omega
  rw [this, List.append_nil]

theorem kidsPerm (r : RightMeta leaves parents md) {h : Nat} (hh : h < parents.length) :
    ∃ ch, md.children[h]? = some ch ∧ ch.Perm (kidsIn parents md.path h) ∧ ∀ c, c ∈ ch ↔ ParentIs parents c h := by
  obtain ⟨ch, h1, h2, h3⟩ := r.children h hh
  refine ⟨ch, h1, ?_, h3⟩
  unfold kidsIn
  rw [List.perm_ext_iff_of_nodup h2 (r.pathNodup.filter _)]
  intro c
  rw [h3]
  rw [List.mem_filter, r.pathMem]
  simp only [decide_eq_true_eq]
  exact ⟨fun hc => ⟨hc.lt, hc⟩, fun hc => hc.2⟩

theorem kidsNil (r : RightMeta leaves parents md) {h : Nat} (hl : h < leaves) (l : List Nat) :
    kidsIn parents l h = [] := by
  unfold kidsIn
  rw [List.filter_eq_nil_iff]
  intro c _ hpar
  simp only [decide_eq_true_eq] at hpar
  exact (r.tree.leaf h (lt_of_lt_of_le hl r.tree.leavesLe)).mp hl ⟨c, hpar⟩

theorem rootInner (r : RightMeta leaves parents md) (hlt : leaves < parents.length) : ¬ md.root < leaves := by
  rw [r.leafIff r.last]
  omega

theorem sizeOf (r : RightMeta leaves parents md) {h : Nat} (hh : h < parents.length) :
    md.sizeOf h = (leavesUnder leaves parents h).card := by
  unfold HMeta.sizeOf; rw [r.size h hh]; rfl

end Spec.RightMeta
end Lp
