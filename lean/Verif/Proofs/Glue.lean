import Verif.Spec.Subsystems
import Verif.Proofs.Once
import Verif.Proofs.Tree
import Verif.Proofs.Series
import Verif.Spec.CoarseFirst
import Verif.Spec.Value

/-!
# Putting partitions of the parts of a system together
-/

namespace Lp
open Spec
open scoped BigOperators

theorem MoreLevels.made {leaves : Nat} {parents parents' : List Int} (h : MoreLevels leaves parents parents') :
    MadeOf leaves parents' 1 (fun _ => leaves) (fun _ => parents) (fun _ x => x) where
  lt := fun _ x _ hx => hx
  all := fun l hl => ⟨0, l, by omega, hl, rfl⟩
  once := fun i j x y hi hj _ _ e => ⟨by omega, e⟩
  node := fun i k _ hk => by
    obtain ⟨k', h1, h2⟩ := h k hk
    exact ⟨k', h1, fun l hl => by
      rw [h2 l hl]
      constructor
      · intro hu; exact ⟨l, hl, rfl, hu⟩
      · rintro ⟨x, _, rfl, hu⟩; exact hu⟩

open Classical in
/-- A node with the given leaves. -/
noncomputable def pickNode (leaves : Nat) (parents : List Int) (S : Finset Nat) : Nat :=
  if h : ∃ x, x < parents.length ∧ leavesUnder leaves parents x = S then h.choose else 0

theorem pickNode_spec {leaves : Nat} {parents : List Int} {S : Finset Nat}
    (h : ∃ x, x < parents.length ∧ leavesUnder leaves parents x = S) :
    pickNode leaves parents S < parents.length ∧ leavesUnder leaves parents (pickNode leaves parents S) = S := by
  unfold pickNode
  rw [dif_pos h]
  exact h.choose_spec

theorem countP_range {A : Type} (P : A → Bool) (f : Nat → List A) (c : Nat) :
    ((List.range c).flatMap f).countP P = ∑ i ∈ Finset.range c, (f i).countP P := by
  induction c with
  | zero => rfl
  | succ c ih => rw [List.range_succ, List.flatMap_append, List.countP_append, ih, Finset.sum_range_succ]; simp

theorem gainOf_range {A K : Type} [Field K] (q : A → Quality K) (f : Nat → List A) (c : Nat) :
    gainOf q ((List.range c).flatMap f) = ∑ i ∈ Finset.range c, gainOf q (f i) := by
  induction c with
  | zero => rfl
  | succ c ih => rw [List.range_succ, List.flatMap_append, gainOf_append, ih, Finset.sum_range_succ]; simp

theorem lossOf_range {A K : Type} [Field K] (q : A → Quality K) (f : Nat → List A) (c : Nat) :
    lossOf q ((List.range c).flatMap f) = ∑ i ∈ Finset.range c, lossOf q (f i) := by
  induction c with
  | zero => rfl
  | succ c ih => rw [List.range_succ, List.flatMap_append, lossOf_append, ih, Finset.sum_range_succ]; simp

section
variable {leaves root c : Nat} {parents : List Int} {size : Nat → Nat} {sub : Nat → List Int} {e : Nat → Nat → Nat}

/-- The node of the system for node `h` of part `i`; it depends on the leaves of `h` only. -/
noncomputable def glue (leaves : Nat) (parents : List Int) (size : Nat → Nat) (sub : Nat → List Int) (e : Nat → Nat → Nat)
    (i h : Nat) : Nat :=
  pickNode leaves parents ((leavesUnder (size i) (sub i) h).image (e i))

theorem glue_spec (m : MadeOf leaves parents c size sub e) {i h : Nat} (hi : i < c) (hh : h < (sub i).length) :
    glue leaves parents size sub e i h < parents.length ∧
      leavesUnder leaves parents (glue leaves parents size sub e i h) = (leavesUnder (size i) (sub i) h).image (e i) := by
  apply pickNode_spec
  obtain ⟨h', h1, h2⟩ := m.node i h hi hh
  refine ⟨h', h1, ?_⟩
  ext l
  rw [mem_leavesUnder, Finset.mem_image]
  constructor
  · rintro ⟨hl, hu⟩
    obtain ⟨x, hx, rfl, hux⟩ := (h2 l hl).mp hu
    exact ⟨x, mem_leavesUnder.mpr ⟨hx, hux⟩, rfl⟩
  · rintro ⟨x, hx, rfl⟩
    obtain ⟨hx, hux⟩ := mem_leavesUnder.mp hx
    have hl := m.lt i x hi hx
    exact ⟨hl, (h2 _ hl).mpr ⟨x, hx, rfl, hux⟩⟩

theorem glue_under (m : MadeOf leaves parents c size sub e) {i h : Nat} (hi : i < c) (hh : h < (sub i).length)
    {j x : Nat} (hj : j < c) (hx : x < size j) :
    Under parents (glue leaves parents size sub e i h) (e j x) ↔ i = j ∧ Under (sub i) h x := by
  have h1 := (glue_spec m hi hh).2
  have hl := m.lt j x hj hx
  have : e j x ∈ leavesUnder leaves parents (glue leaves parents size sub e i h) ↔
      Under parents (glue leaves parents size sub e i h) (e j x) := by
    rw [mem_leavesUnder]; exact ⟨fun h => h.2, fun h => ⟨hl, h⟩⟩
  rw [← this, h1, Finset.mem_image]
  constructor
  · rintro ⟨y, hy, he⟩
    obtain ⟨hy, hu⟩ := mem_leavesUnder.mp hy
    obtain ⟨rfl, rfl⟩ := m.once i j y x hi hj hy hx he
    exact ⟨rfl, hu⟩
  · rintro ⟨rfl, hu⟩
    exact ⟨x, mem_leavesUnder.mpr ⟨hx, hu⟩, rfl⟩

theorem glue_cover (m : MadeOf leaves parents c size sub e) {L : Nat → List Nat}
    (hL : ∀ i, i < c → LeafCover (size i) (sub i) (L i)) :
    LeafCover leaves parents ((List.range c).flatMap fun i => (L i).map (glue leaves parents size sub e i)) := by
  classical
  constructor
  · intro y hy
    obtain ⟨i, hi, hy⟩ := List.mem_flatMap.mp hy
    obtain ⟨h, hh, rfl⟩ := List.mem_map.mp hy
    have hi := List.mem_range.mp hi
    exact (glue_spec m hi ((hL i hi).1 h hh)).1
  · intro l hl
    obtain ⟨j, x, hj, hx, rfl⟩ := m.all l hl
    rw [exactlyOne_countP, countP_range, Finset.sum_eq_single_of_mem j (Finset.mem_range.mpr hj)]
    · rw [List.countP_map, ← (exactlyOne_countP.mp ((hL j hj).2 x hx))]
      apply List.countP_congr
      intro h hh
      simp only [Function.comp, decide_eq_true_eq]
      rw [glue_under m hj ((hL j hj).1 h hh) hj hx]
      exact ⟨fun h => h.2, fun h => ⟨rfl, h⟩⟩
    · intro i hi hne
      have hi := Finset.mem_range.mp hi
      rw [List.countP_eq_zero]
      intro y hy
      obtain ⟨h, hh, rfl⟩ := List.mem_map.mp hy
      simp only [decide_eq_true_eq]
      rw [glue_under m hi ((hL i hi).1 h hh) hj hx]
      exact fun h => hne h.1

/-- The rectangle of the system for a rectangle of part `i`. -/
noncomputable def glueRect (leaves : Nat) (parents : List Int) (size : Nat → Nat) (sub : Nat → List Int) (e : Nat → Nat → Nat)
    (i : Nat) (r : Rect) : Rect := ⟨glue leaves parents size sub e i r.node, r.first, r.last⟩

theorem glue_has (m : MadeOf leaves parents c size sub e) {i j x t : Nat} {r : Rect} (hi : i < c) (hh : r.node < (sub i).length)
    (hj : j < c) (hx : x < size j) :
    (glueRect leaves parents size sub e i r).Has parents (e j x) t ↔ i = j ∧ r.Has (sub i) x t := by
  unfold Rect.Has glueRect
  dsimp only
  rw [glue_under m hi hh hj hx, and_assoc]

theorem glue_cells (m : MadeOf leaves parents c size sub e) {n : Nat} {L : Nat → List Rect}
    (hL : ∀ i, i < c → CellCover (size i) (sub i) n (L i)) :
    CellCover leaves parents n ((List.range c).flatMap fun i => (L i).map (glueRect leaves parents size sub e i)) := by
  classical
  constructor
  · intro y hy
    obtain ⟨i, hi, hy⟩ := List.mem_flatMap.mp hy
    obtain ⟨h, hh, rfl⟩ := List.mem_map.mp hy
    have hi := List.mem_range.mp hi
    have := (hL i hi).1 h hh
    exact ⟨(glue_spec m hi this.1).1, this.2⟩
  · intro l t hl ht
    obtain ⟨j, x, hj, hx, rfl⟩ := m.all l hl
    rw [exactlyOne_countP, countP_range, Finset.sum_eq_single_of_mem j (Finset.mem_range.mpr hj)]
    · rw [List.countP_map, ← (exactlyOne_countP.mp ((hL j hj).2 x t hx ht))]
      apply List.countP_congr
      intro h hh
      simp only [Function.comp, decide_eq_true_eq]
      rw [glue_has m hj ((hL j hj).1 h hh).1 hj hx]
      exact ⟨fun h => h.2, fun h => ⟨rfl, h⟩⟩
    · intro i hi hne
      have hi := Finset.mem_range.mp hi
      rw [List.countP_eq_zero]
      intro y hy
      obtain ⟨h, hh, rfl⟩ := List.mem_map.mp hy
      simp only [decide_eq_true_eq]
      rw [glue_has m hi ((hL i hi).1 h hh).1 hj hx]
      exact fun h => hne h.1

/-- In a tree, a node whose leaves are some of the leaves of another one is under it or above it. -/
theorem under_or (t : IsTree leaves parents root) {a b : Nat} (hb : b < parents.length)
    (h : ∀ l, l < leaves → Under parents b l → Under parents a l) : Under parents a b ∨ Under parents b a := by
  obtain ⟨l, hl, hu⟩ := t.exists_leaf hb
  have ha := h l hl hu
  clear h hb
  clear hl
  induction hu with
  | self => exact Or.inl ha
  | @up h p hp hu ih =>
    cases ha with
    | self => exact Or.inr (.up hp hu)
    | up hp' ha =>
      obtain rfl := hp.fun hp'
      exact ih ha

theorem glue_coarse (m : MadeOf leaves parents c size sub e) (r : IsTree leaves parents root)
    {roots : Nat → Nat} (rs : ∀ i, i < c → IsTree (size i) (sub i) (roots i)) {L : Nat → List Rect}
    (hlt : ∀ i, i < c → ∀ x ∈ L i, x.node < (sub i).length)
    (hL : ∀ i, i < c → CoarseFirst (sub i) (L i)) :
    CoarseFirst parents ((List.range c).flatMap fun i => (L i).map (glueRect leaves parents size sub e i)) := by
  intro y hy z hz hne hu
  obtain ⟨i, hi, hy⟩ := List.mem_flatMap.mp hy
  obtain ⟨a, ha, rfl⟩ := List.mem_map.mp hy
  obtain ⟨j, hj, hz⟩ := List.mem_flatMap.mp hz
  obtain ⟨b, hb, rfl⟩ := List.mem_map.mp hz
  have hi := List.mem_range.mp hi
  have hj := List.mem_range.mp hj
  have hna := hlt i hi a ha
  have hnb := hlt j hj b hb
  simp only [glueRect] at hne hu ⊢
  have key : ∀ x, x < size j → Under (sub j) b.node x → i = j ∧ Under (sub i) a.node x := fun x hx hux =>
    (glue_under m hi hna hj hx).mp (hu.trans ((glue_under m hj hnb hj hx).mpr ⟨rfl, hux⟩))
  obtain ⟨x0, hx0, hux0⟩ := (rs j hj).exists_leaf hnb
  obtain ⟨rfl, _⟩ := key x0 hx0 hux0
  have hsub : ∀ x, x < size i → Under (sub i) b.node x → Under (sub i) a.node x := fun x hx h => (key x hx h).2
  have hnot : ¬ Under (sub i) b.node a.node := by
    intro hba
    apply hne
    unfold glue
    congr 1
    congr 1
    ext x
    rw [mem_leavesUnder, mem_leavesUnder]
    exact ⟨fun h => ⟨h.1, hba.trans h.2⟩, fun h => ⟨h.1, hsub x h.1 h.2⟩⟩
  rcases under_or (rs i hi) hnb hsub with h | h
  · exact hL i hi a ha b hb (fun he => hnot (he ▸ .self)) h
  · exact absurd h hnot

theorem glue_anyQ {ι κ : Type} [DecidableEq κ] {m : Nat} {V : Nat → κ → ℝ} {s : Finset ι} {f : ι → κ}
    (hf : Set.InjOn f (s : Set ι)) : anyQ m V (s.image f) = anyQ m (fun k x => V k (f x)) s := by
  have hg : ∀ k, gainAny (s.image f) (V k) = gainAny s (fun x => V k (f x)) := by
    intro k
    unfold gainAny
    rw [Finset.sum_image hf, Finset.sum_image hf]
  unfold anyQ
  congr 1
  · exact Finset.sum_congr rfl fun k _ => hg k
  · refine Finset.sum_congr rfl fun k _ => ?_
    unfold lossAny
    rw [hg, Finset.sum_image hf, Finset.card_image_of_injOn hf]

theorem glue_inj (m : MadeOf leaves parents c size sub e) {i h : Nat} (hi : i < c) :
    Set.InjOn (e i) (leavesUnder (size i) (sub i) h : Set Nat) := by
  intro x hx y hy he
  have hx := (mem_leavesUnder.mp (Finset.mem_coe.mp hx)).1
  have hy := (mem_leavesUnder.mp (Finset.mem_coe.mp hy)).1
  exact (m.once i i x y hi hi hx hy he).2

theorem glue_quality (m : MadeOf leaves parents c size sub e) {k i h : Nat} (hi : i < c) (hh : h < (sub i).length)
    (V : Nat → Nat → ℝ) :
    anyQ k V (leavesUnder leaves parents (glue leaves parents size sub e i h)) =
      anyQ k (fun s x => V s (e i x)) (leavesUnder (size i) (sub i) h) := by
  rw [(glue_spec m hi hh).2, glue_anyQ (glue_inj m hi)]

theorem glue_qualityD (m : MadeOf leaves parents c size sub e) {k i : Nat} (hi : i < c) {r : Rect}
    (hh : r.node < (sub i).length) (V : Nat → Nat × Nat → ℝ) :
    anyQ k V (dCells leaves parents (glueRect leaves parents size sub e i r)) =
      anyQ k (fun s x => V s (e i x.1, x.2)) (dCells (size i) (sub i) r) := by
  have : dCells leaves parents (glueRect leaves parents size sub e i r) =
      (dCells (size i) (sub i) r).image (fun x => (e i x.1, x.2)) := by
    unfold dCells glueRect
    rw [(glue_spec m hi hh).2]
    ext ⟨l, t⟩
    simp only [Finset.mem_product, Finset.mem_image, Prod.exists, Prod.mk.injEq]
    constructor
    · rintro ⟨⟨x, hx, rfl⟩, ht⟩; exact ⟨x, t, ⟨hx, ht⟩, rfl, rfl⟩
    · rintro ⟨x, t', ⟨hx, ht⟩, rfl, rfl⟩; exact ⟨⟨x, hx, rfl⟩, ht⟩
  rw [this, glue_anyQ]
  rintro ⟨x, t⟩ hx ⟨y, t'⟩ hy he
  have hx := (Finset.mem_product.mp (Finset.mem_coe.mp hx)).1
  have hy := (Finset.mem_product.mp (Finset.mem_coe.mp hy)).1
  have h1 := (Prod.mk.inj he).1
  have h2 := (Prod.mk.inj he).2
  exact Prod.ext (glue_inj m hi (Finset.mem_coe.mpr hx) (Finset.mem_coe.mpr hy) h1) h2

end
end Lp
