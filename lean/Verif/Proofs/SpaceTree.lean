import Verif.Spec.Space
import Verif.Proofs.Tree
import Verif.Proofs.HCover

/-!
# The finer hierarchy
-/

namespace Lp
open Spec
variable {c leaves root : Nat} {parents : List Int}

theorem finerTree_length : (finerTree c leaves parents).length = leaves * c + parents.length := by
  simp [finerTree]

theorem div_lt_leaves {x : Nat} (hx : x < leaves * c) : x / c < leaves :=
  Nat.div_lt_of_lt_mul (by rwa [Nat.mul_comm] at hx)

theorem finer_parent_new {x p : Nat} (hx : x < leaves * c) :
    ParentIs (finerTree c leaves parents) x p ↔ p = leaves * c + x / c := by
  unfold ParentIs finerTree
  rw [List.getElem?_append_left (by simpa using hx), List.getElem?_map, List.getElem?_range hx, Option.map_some]
  constructor
  · intro h
    have := Option.some.inj h
    exact_mod_cast this.symm
  · rintro rfl; rfl

theorem finer_parent_old {h p : Nat} :
    ParentIs (finerTree c leaves parents) (leaves * c + h) p ↔ ∃ p0, p = leaves * c + p0 ∧ ParentIs parents h p0 := by
  unfold ParentIs finerTree
  rw [List.getElem?_append_right (by simp), List.length_map, List.length_range, Nat.add_sub_cancel_left, List.getElem?_map]
  cases e : parents[h]? with
  | none => simp
  | some y =>
    rw [Option.map_some]
    constructor
    · intro h'
      have h' := Option.some.inj h'
      split at h'
      · omega
      · refine ⟨y.toNat, by omega, ?_⟩
        congr 1; omega
    · rintro ⟨p0, rfl, h'⟩
      have h' := Option.some.inj h'
      rw [h', if_neg (by omega)]
      congr 1
      push_cast
      omega

theorem finer_under_old {a h : Nat} :
    Under (finerTree c leaves parents) (leaves * c + a) (leaves * c + h) ↔ Under parents a h := by
  constructor
  · intro hu
    obtain ⟨y, hy⟩ : ∃ y, y = leaves * c + h := ⟨_, rfl⟩
    rw [← hy] at hu
    induction hu generalizing h with
    | self => obtain rfl : a = h := by omega
              exact .self
    | up hp _ ih =>
      subst hy
      obtain ⟨p0, rfl, hp0⟩ := finer_parent_old.mp hp
      exact .up hp0 (ih rfl)
  · intro hu
    induction hu with
    | self => exact .self
    | up hp _ ih => exact .up (finer_parent_old.mpr ⟨_, rfl, hp⟩) ih

theorem finer_under_new {a x : Nat} (hx : x < leaves * c) :
    Under (finerTree c leaves parents) (leaves * c + a) x ↔ Under parents a (x / c) := by
  rw [← finer_under_old (c := c) (leaves := leaves) (parents := parents) (a := a)]
  constructor
  · intro hu
    obtain ⟨b, hb⟩ : ∃ b, b = leaves * c + a := ⟨_, rfl⟩
    rw [← hb] at hu ⊢
    cases hu with
    | self => omega
    | up hp hu =>
      rw [finer_parent_new hx] at hp
      rwa [hp] at hu
  · intro hu
    exact .up ((finer_parent_new hx).mpr rfl) hu

theorem finer_under_leaf {x y : Nat} (hx : x < leaves * c) (hu : Under (finerTree c leaves parents) x y) : y = x := by
  induction hu with
  | self => rfl
  | @up h p hp _ ih =>
    subst ih
    by_cases hh : h < leaves * c
    · rw [finer_parent_new hh] at hp
      generalize h / c = z at hp
      omega
    · obtain ⟨h0, rfl⟩ := Nat.exists_eq_add_of_le (not_lt.mp hh)
      obtain ⟨p0, h1, _⟩ := finer_parent_old.mp hp
      omega

theorem finer_tree (t : IsTree leaves parents root) (hc : 0 < c) :
    IsTree (leaves * c) (finerTree c leaves parents) (leaves * c + root) where
  rootLt := by rw [finerTree_length]; have := t.rootLt; omega
  rootPar := by
    unfold finerTree
    rw [List.getElem?_append_right (by simp), List.length_map, List.length_range, Nat.add_sub_cancel_left, List.getElem?_map,
      t.rootPar]
    rfl
  other := by
    intro h hh hne
    rw [finerTree_length] at hh ⊢
    by_cases hl : h < leaves * c
    · have := div_lt_leaves hl
      have := t.leavesLe
      exact ⟨leaves * c + h / c, by omega, (finer_parent_new hl).mpr rfl⟩
    · obtain ⟨h0, rfl⟩ := Nat.exists_eq_add_of_le (not_lt.mp hl)
      obtain ⟨p, hp, hpar⟩ := t.other h0 (by omega) (by omega)
      exact ⟨leaves * c + p, by omega, finer_parent_old.mpr ⟨p, rfl, hpar⟩⟩
  reach := by
    intro h hh
    rw [finerTree_length] at hh
    by_cases hl : h < leaves * c
    · have := div_lt_leaves hl
      have := t.leavesLe
      exact (finer_under_new hl).mpr (t.reach _ (by omega))
    · obtain ⟨h0, rfl⟩ := Nat.exists_eq_add_of_le (not_lt.mp hl)
      exact finer_under_old.mpr (t.reach _ (by omega))
  leavesLe := by rw [finerTree_length]; omega
  leaf := by
    intro h hh
    rw [finerTree_length] at hh
    by_cases hl : h < leaves * c
    · refine ⟨fun _ => ?_, fun _ => hl⟩
      rintro ⟨y, hy⟩
      have := finer_under_leaf hl (.up hy .self)
      subst this
      have := (finer_parent_new hl).mp hy
      generalize y / c = z at this
      omega
    · obtain ⟨h0, rfl⟩ := Nat.exists_eq_add_of_le (not_lt.mp hl)
      refine ⟨fun h => absurd h (by omega), fun hn => ?_⟩
      exfalso
      apply hn
      by_cases h1 : h0 < leaves
      · have h2 : c * h0 < leaves * c := by rw [Nat.mul_comm leaves]; exact Nat.mul_lt_mul_of_pos_left h1 hc
        exact ⟨c * h0, (finer_parent_new h2).mpr (by rw [Nat.mul_div_cancel_left _ hc])⟩
      · have := (not_congr (t.leaf h0 (by omega))).mp h1
        obtain ⟨y, hy⟩ := not_not.mp this
        exact ⟨leaves * c + y, finer_parent_old.mpr ⟨h0, rfl, hy⟩⟩

theorem finer_balanced (hb : Balanced leaves parents) : Balanced (leaves * c) (finerTree c leaves parents) := by
  obtain ⟨lv, h1, h2⟩ := hb
  refine ⟨fun h => if h < leaves * c then 0 else lv (h - leaves * c) + 1, fun h hh => by simp [hh], ?_⟩
  intro h p hp
  by_cases hl : h < leaves * c
  · rw [finer_parent_new hl] at hp
    subst hp
    dsimp only
    rw [if_pos hl, if_neg (Nat.not_lt.mpr (Nat.le_add_right _ _)), Nat.add_sub_cancel_left, h1 _ (div_lt_leaves hl)]
  · obtain ⟨h0, rfl⟩ := Nat.exists_eq_add_of_le (not_lt.mp hl)
    obtain ⟨p0, rfl, hp0⟩ := finer_parent_old.mp hp
    dsimp only
    rw [if_neg (by omega), if_neg (by omega), Nat.add_sub_cancel_left, Nat.add_sub_cancel_left, h2 _ _ hp0]

theorem finer_leavesUnder {h x : Nat} :
    x ∈ leavesUnder (leaves * c) (finerTree c leaves parents) (leaves * c + h) ↔
      x < leaves * c ∧ x / c ∈ leavesUnder leaves parents h := by
  rw [mem_leavesUnder, mem_leavesUnder]
  constructor
  · rintro ⟨h1, h2⟩; exact ⟨h1, div_lt_leaves h1, (finer_under_new h1).mp h2⟩
  · rintro ⟨h1, _, h2⟩; exact ⟨h1, (finer_under_new h1).mpr h2⟩

end Lp
