import Verif.Proofs.ResolutionH
import Verif.Proofs.NearLeaf

/-!
# The finer hierarchy is read right if the hierarchy is
-/

namespace Lp
open Spec
variable {c leaves : Nat} {parents : List Int}

theorem finer_below_old {a h d : Nat} (hb : Below parents a h d) :
    Below (finerTree c leaves parents) (leaves * c + a) (leaves * c + h) d := by
  induction hb with
  | self => exact .self
  | up hp _ ih => exact .up (finer_parent_old.mpr ⟨_, rfl, hp⟩) ih

theorem finer_below_old' {a y d : Nat} (hb : Below (finerTree c leaves parents) (leaves * c + a) y d) :
    ∀ h, y = leaves * c + h → Below parents a h d := by
  induction hb with
  | self =>
    intro h e
    obtain rfl : a = h := by omega
    exact .self
  | up hp _ ih =>
    rintro h rfl
    obtain ⟨p0, rfl, hp0⟩ := finer_parent_old.mp hp
    exact .up hp0 (ih p0 rfl)

theorem finer_below_new {a x d : Nat} (hx : x < leaves * c) (hb : Below (finerTree c leaves parents) (leaves * c + a) x d) :
    ∃ d0, d = d0 + 1 ∧ Below parents a (x / c) d0 := by
  obtain ⟨b, hbe⟩ : ∃ b, b = leaves * c + a := ⟨_, rfl⟩
  rw [← hbe] at hb
  cases hb with
  | self => omega
  | up hp hb =>
    rw [finer_parent_new hx] at hp
    subst hp hbe
    exact ⟨_, rfl, finer_below_old' hb _ rfl⟩

theorem finer_below_leaf {x y d : Nat} (hx : x < leaves * c) (hb : Below (finerTree c leaves parents) x y d) : d = 0 ∧ y = x := by
  have := finer_under_leaf hx hb.under
  subst this
  cases hb with
  | self => exact ⟨rfl, rfl⟩
  | up hp hb =>
    have := finer_under_leaf hx hb.under
    rw [this, finer_parent_new hx] at hp
    generalize y / c = z at hp
    omega

theorem finer_nearest {a d x : Nat} (h : NearestLeaf (leaves * c) (finerTree c leaves parents) (leaves * c + a) d x) :
    ∃ d0, d = d0 + 1 ∧ NearestLeaf leaves parents a d0 (x / c) := by
  have hx := h.leaf
  obtain ⟨d0, rfl, hb⟩ := finer_below_new hx h.below
  refine ⟨d0, rfl, div_lt_leaves hx, hb, ?_⟩
  intro d' l' hl' hb' hn
  have hc : 0 < c := by
    rcases Nat.eq_zero_or_pos c with rfl | hc
    · omega
    · exact hc
  have hx' : c * l' + 0 < leaves * c := (piece_lt hc).mpr hl'
  refine h.first (d' + 1) (c * l' + 0) hx' (.up ((finer_parent_new hx').mpr rfl) ?_) ?_
  · rw [piece_div hc]; exact finer_below_old hb'
  · unfold Nearer at hn ⊢
    rcases hn with hn | ⟨e, hn⟩
    · left; omega
    · right
      refine ⟨by omega, ?_⟩
      have h1 := Nat.mul_le_mul_left c (show l' + 1 ≤ x / c from hn)
      rw [Nat.mul_add] at h1
      have h2 := Nat.mul_div_le x c
      omega

theorem finer_nearestFirst (h : NearestFirst leaves parents) : NearestFirst (leaves * c) (finerTree c leaves parents) := by
  intro y p d x d' x' hp h1 h2
  by_cases hy : y < leaves * c
  · rw [finer_parent_new hy] at hp
    subst hp
    obtain ⟨d0, rfl, _⟩ := finer_nearest h2
    obtain ⟨rfl, rfl⟩ := finer_below_leaf hy h1.below
    left; omega
  · obtain ⟨y0, rfl⟩ := Nat.exists_eq_add_of_le (not_lt.mp hy)
    obtain ⟨p0, rfl, hp0⟩ := finer_parent_old.mp hp
    obtain ⟨e, rfl, k1⟩ := finer_nearest h1
    obtain ⟨e', rfl, k2⟩ := finer_nearest h2
    rcases h y0 p0 e (x / c) e' (x' / c) hp0 k1 k2 with hlt | ⟨rfl, hlt⟩
    · left; omega
    · right
      refine ⟨rfl, ?_⟩
      by_contra hge
      have := Nat.div_le_div_right (c := c) (not_lt.mp hge)
      omega

end Lp
