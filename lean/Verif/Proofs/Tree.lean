import Verif.Spec.Tree
import Mathlib.Algebra.BigOperators.Group.Finset.Basic
import Mathlib.Algebra.BigOperators.Intervals

/-!
# Trees given by parent vectors
-/

namespace Lp.Spec
variable {leaves : Nat} {parents : List Int} {root : Nat}

theorem ParentIs.fun {h p p' : Nat} (h1 : ParentIs parents h p) (h2 : ParentIs parents h p') :
    p = p' := by
  unfold ParentIs at h1 h2
  rw [h1] at h2
  have := Option.some.inj h2
  omega

theorem ParentIs.lt {h p : Nat} (h1 : ParentIs parents h p) : h < parents.length :=
  (List.getElem?_eq_some_iff.mp h1).1

theorem Under.trans {a b c : Nat} (h1 : Under parents a b) (h2 : Under parents b c) : Under parents a c := by
  induction h2 with
  | self => exact h1
  | up hp _ ih => exact .up hp ih

theorem IsTree.root_noParent (t : IsTree leaves parents root) {p : Nat} : ¬ ParentIs parents root p := by
  intro h
  unfold ParentIs at h
  rw [t.rootPar] at h
  simp at h

theorem IsTree.parent_lt (t : IsTree leaves parents root) {h p : Nat} (hp : ParentIs parents h p) :
    p < parents.length := by
  have hr : h ≠ root := fun e => t.root_noParent (e ▸ hp)
  obtain ⟨p', h1, h2⟩ := t.other h hp.lt hr
  rwa [hp.fun h2]

/-- `Up h k`: the `k`-fold parent of `h` is the root. -/
inductive Up (parents : List Int) (root : Nat) : Nat → Nat → Prop
  | root : Up parents root root 0
  | step {h p k : Nat} : ParentIs parents h p → Up parents root p k → Up parents root h (k + 1)

theorem up_unique (t : IsTree leaves parents root) {h k k' : Nat} (h1 : Up parents root h k)
    (h2 : Up parents root h k') : k = k' := by
  induction h1 generalizing k' with
  | root => cases h2 with
    | root => rfl
    | step hp _ => exact absurd hp t.root_noParent
  | step hp _ ih =>
    cases h2 with
    | root => exact absurd hp t.root_noParent
    | step hp' h' =>
      rw [hp.fun hp'] at ih
      rw [ih h']

theorem exists_up {h : Nat} (hu : Under parents root h) :
    ∃ k, Up parents root h k := by
  induction hu with
  | self => exact ⟨0, .root⟩
  | up hp _ ih => obtain ⟨k, hk⟩ := ih; exact ⟨k + 1, .step hp hk⟩

/-- Depth of the nodes. -/
theorem IsTree.depth (t : IsTree leaves parents root) :
    ∃ d : Nat → Nat, d root = 0 ∧ ∀ h p, ParentIs parents h p → d h = d p + 1 := by
  have hex : ∀ h, ∃ k, h < parents.length → Up parents root h k := by
    intro h
    by_cases hh : h < parents.length
    · obtain ⟨k, hk⟩ := exists_up (t.reach h hh); exact ⟨k, fun _ => hk⟩
    · exact ⟨0, fun h' => absurd h' hh⟩
  choose d hd using hex
  refine ⟨d, ?_, ?_⟩
  · exact up_unique t (hd root t.rootLt) .root
  · intro h p hp
    exact up_unique t (hd h hp.lt) (.step hp (hd p (t.parent_lt hp)))

theorem under_depth {d : Nat → Nat} (hd : ∀ h p, ParentIs parents h p → d h = d p + 1) {a h : Nat}
    (hu : Under parents a h) : d a ≤ d h ∧ (d a = d h → a = h) := by
  induction hu with
  | self => exact ⟨le_refl _, fun _ => rfl⟩
  | up hp _ ih => have := hd _ _ hp; exact ⟨by omega, fun h => by omega⟩

theorem under_same_depth {d : Nat → Nat} (hd : ∀ h p, ParentIs parents h p → d h = d p + 1) {a b h : Nat}
    (h1 : Under parents a h) (h2 : Under parents b h) (he : d a = d b) : a = b := by
  induction h1 with
  | self => exact ((under_depth hd h2).2 he.symm).symm
  | @up h p hp hu ih =>
    cases h2 with
    | self => have := (under_depth hd hu).1; have := hd _ _ hp; omega
    | up hp' hu' => exact ih (by rw [hp.fun hp']; exact hu')

theorem under_iff {h l : Nat} : Under parents h l ↔ l = h ∨ ∃ c, ParentIs parents c h ∧ Under parents c l := by
  constructor
  · intro hu
    induction hu with
    | self => exact Or.inl rfl
    | @up l p hp _ ih =>
      right
      rcases ih with rfl | ⟨c, hc, hcu⟩
      · exact ⟨l, hp, .self⟩
      · exact ⟨c, hc, .up hp hcu⟩
  · rintro (rfl | ⟨c, hc, hcu⟩)
    · exact .self
    · exact (Under.up hc .self : Under parents h c).trans hcu

theorem mem_leavesUnder {h l : Nat} : l ∈ leavesUnder leaves parents h ↔ l < leaves ∧ Under parents h l := by
  classical
  unfold leavesUnder; rw [Finset.mem_filter, Finset.mem_range]

theorem under_lt (t : IsTree leaves parents root) {a h : Nat} (hu : Under parents a h) (hh : h < parents.length) :
    a < parents.length := by
  induction hu with
  | self => exact hh
  | up hp _ ih => exact ih (t.parent_lt hp)

theorem leavesUnder_leaf (t : IsTree leaves parents root) {h : Nat} (hl : h < leaves) :
    leavesUnder leaves parents h = {h} := by
  ext l
  rw [mem_leavesUnder, Finset.mem_singleton]
  constructor
  · rintro ⟨_, hu⟩
    rcases under_iff.mp hu with rfl | ⟨c, hc, _⟩
    · rfl
    · exact absurd ⟨c, hc⟩ ((t.leaf h (lt_of_lt_of_le hl t.leavesLe)).mp hl)
  · rintro rfl; exact ⟨hl, .self⟩

/-- Leaves below an inner node: disjoint union over its children. -/
theorem leavesUnder_inner (t : IsTree leaves parents root) {h : Nat} (hl : leaves ≤ h) (ch : Finset Nat)
    (hch : ∀ c, c ∈ ch ↔ ParentIs parents c h) :
    leavesUnder leaves parents h = ch.biUnion (leavesUnder leaves parents) ∧
      (ch : Set Nat).PairwiseDisjoint (leavesUnder leaves parents) := by
  obtain ⟨d, _, hd⟩ := t.depth
  constructor
  · ext l
    rw [Finset.mem_biUnion, mem_leavesUnder]
    constructor
    · rintro ⟨h1, hu⟩
      rcases under_iff.mp hu with rfl | ⟨c, hc, hcu⟩
      · omega
      · exact ⟨c, (hch c).mpr hc, mem_leavesUnder.mpr ⟨h1, hcu⟩⟩
    · rintro ⟨c, hc, hl'⟩
      rw [mem_leavesUnder] at hl'
      exact ⟨hl'.1, under_iff.mpr (Or.inr ⟨c, (hch c).mp hc, hl'.2⟩)⟩
  · intro a ha b hb hab
    rw [Function.onFun, Finset.disjoint_left]
    intro l h1 h2
    rw [mem_leavesUnder] at h1 h2
    exact hab (under_same_depth hd h1.2 h2.2 (by
      rw [hd a h ((hch a).mp ha), hd b h ((hch b).mp hb)]))

theorem card_leavesUnder_inner (t : IsTree leaves parents root) {h : Nat} (hl : leaves ≤ h) (ch : Finset Nat)
    (hch : ∀ c, c ∈ ch ↔ ParentIs parents c h) :
    (leavesUnder leaves parents h).card = ∑ c ∈ ch, (leavesUnder leaves parents c).card := by
  obtain ⟨h1, h2⟩ := leavesUnder_inner t hl ch hch
  rw [h1, Finset.card_biUnion h2]

/-- Every node has a leaf below it. -/
theorem IsTree.exists_leaf (t : IsTree leaves parents root) {h : Nat} (hh : h < parents.length) :
    ∃ l, l < leaves ∧ Under parents h l := by
  obtain ⟨d, _, hd⟩ := t.depth
  -- depths are bounded on the finite set of nodes
  obtain ⟨B, hB⟩ : ∃ B, ∀ x, x < parents.length → d x ≤ B := by
    refine ⟨(Finset.range parents.length).sup d, ?_⟩
    intro x hx
    exact Finset.le_sup (f := d) (Finset.mem_range.mpr hx)
  have : ∀ k h, h < parents.length → B - d h ≤ k → ∃ l, l < leaves ∧ Under parents h l := by
    intro k
    induction k with
    | zero =>
      intro h hh hk
      by_cases hl : h < leaves
      · exact ⟨h, hl, .self⟩
      · exfalso
        obtain ⟨c, hc⟩ := not_not.mp (fun hn => hl ((t.leaf h hh).mpr hn))
        have := hd c h hc
        have := hB c hc.lt
        omega
    | succ k ih =>
      intro h hh hk
      by_cases hl : h < leaves
      · exact ⟨h, hl, .self⟩
      · obtain ⟨c, hc⟩ := not_not.mp (fun hn => hl ((t.leaf h hh).mpr hn))
        have := hd c h hc
        obtain ⟨l, hl1, hl2⟩ := ih c hc.lt (by omega)
        exact ⟨l, hl1, (Under.up hc .self : Under parents h c).trans hl2⟩
  exact this (B - d h) h hh (le_refl _)

/-- A finite check that a parent vector is a tree, for examples; `d` grows from a node to its children. -/
theorem IsTree.ofCheck {leaves : Nat} {parents : List Int} {root : Nat} (d : Nat → Nat)
    (h1 : parents[root]? = some (-1))
    (h2 : ∀ h, h < parents.length → h ≠ root → ∃ p, p < parents.length ∧ ParentIs parents h p ∧ d p < d h)
    (h3 : leaves ≤ parents.length)
    (h4 : ∀ h, h < parents.length → (h < leaves ↔ ¬ ∃ c, c < parents.length ∧ ParentIs parents c h)) :
    IsTree leaves parents root where
  rootLt := (List.getElem?_eq_some_iff.mp h1).1
  rootPar := h1
  other h hh hr := by obtain ⟨p, a, b, _⟩ := h2 h hh hr; exact ⟨p, a, b⟩
  reach := by
    have : ∀ n h, d h < n → h < parents.length → Under parents root h := by
      intro n
      induction n with
      | zero => intro h hd; omega
      | succ n ih =>
        intro h hd hh
        by_cases hr : h = root
        · subst hr; exact .self
        · obtain ⟨p, a, b, c⟩ := h2 h hh hr
          exact .up b (ih p (by omega) a)
    exact fun h hh => this (d h + 1) h (by omega) hh
  leavesLe := h3
  leaf h hh := by
    rw [h4 h hh]
    constructor
    · rintro a ⟨c, hc⟩; exact a ⟨c, hc.lt, hc⟩
    · rintro a ⟨c, _, hc⟩; exact a ⟨c, hc⟩

/-- A finite check that a tree is balanced, for examples. -/
theorem Balanced.ofCheck {leaves : Nat} {parents : List Int} (level : Nat → Nat)
    (h0 : ∀ h, h < leaves → level h = 0)
    (h1 : ∀ h, h < parents.length → ∀ p, p < parents.length → ParentIs parents h p → level p = level h + 1)
    (h2 : ∀ x, x ∈ parents → x < (parents.length : Int)) : Balanced leaves parents := by
  refine ⟨level, h0, fun h p hp => h1 h hp.lt p ?_ hp⟩
  have := h2 _ (List.mem_of_getElem? hp)
  omega

end Lp.Spec
