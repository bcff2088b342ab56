import Verif.Proofs.Refine
import Verif.Proofs.ResolutionH
import Verif.Proofs.Same
import Mathlib.Data.Finset.Powerset
import Mathlib.Algebra.Order.BigOperators.Group.List

/-!
# There are finitely many qualities of best partitions
-/

namespace Lp
open Spec
variable {F K P T : Type} [Field K] [LinearOrder K] [IsStrictOrderedRing K] [FloatP F K] {u : K}

/-- Two tilings of the same interval with the same left ends are equal. -/
theorem tiles_ext {a b : Nat} {L : List (Nat × Nat)} (h : Tiles a b L) :
    ∀ {L' : List (Nat × Nat)}, Tiles a b L' → (∀ x, x ∈ L.map Prod.fst ↔ x ∈ L'.map Prod.fst) → L = L' := by
  have low : ∀ {a b : Nat} {L : List (Nat × Nat)}, Tiles a b L → ∀ x ∈ L.map Prod.fst, a ≤ x ∧ x < b := by
    intro a b L h x hx
    obtain ⟨y, hy, rfl⟩ := List.mem_map.mp hx
    have := h.bounds y hy
    omega
  have fst : ∀ {a b : Nat} {L : List (Nat × Nat)}, Tiles a b L → a < b → a ∈ L.map Prod.fst := by
    intro a b L h hab
    cases h with
    | nil => omega
    | cons _ _ _ => simp
  induction h with
  | nil a =>
    intro L' h' _
    cases h' with
    | nil => rfl
    | cons h1 h2 _ => omega
  | @cons a b c L h1 h2 h3 ih =>
    intro L' h' hx
    cases h' with
    | nil => omega
    | @cons _ _ c' L' h1' h2' h3' =>
      have key : ∀ x, a < x → (x ∈ L.map Prod.fst ↔ x ∈ L'.map Prod.fst) := by
        intro x hax
        have := hx x
        simp only [List.map_cons, List.mem_cons] at this
        constructor
        · intro hL
          rcases this.mp (Or.inr hL) with e | e
          · omega
          · exact e
        · intro hL
          rcases this.mpr (Or.inr hL) with e | e
          · omega
          · exact e
      have hc : c = c' := by
        rcases Nat.lt_trichotomy c c' with hlt | he | hlt
        · have := low h3' _ ((key (c + 1) (by omega)).mp (fst h3 (by omega)))
          omega
        · exact he
        · have := low h3 _ ((key (c' + 1) (by omega)).mpr (fst h3' (by omega)))
          omega
      subst hc
      rw [ih h3' (fun x => by
        by_cases hax : a < x
        · exact key x hax
        · constructor
          · intro h; have := low h3 x h; omega
          · intro h; have := low h3' x h; omega)]

omit [IsStrictOrderedRing K] in
/-- A quality that is the sum over a duplicate-free list of elements of `U`. -/
theorem quality_mem {A : Type} [DecidableEq A] [DecidableEq (Quality K)] (q : A → Quality K) (U : Finset A) (L : List A) (nd : L.Nodup)
    (h : ∀ x ∈ L, x ∈ U) :
    sumQuality (L.map q) ∈ U.powerset.image (fun S : Finset A => (⟨∑ x ∈ S, (q x).gain, ∑ x ∈ S, (q x).loss⟩ : Quality K)) := by
  refine Finset.mem_image.mpr ⟨L.toFinset, Finset.mem_powerset.mpr (fun x hx => h x (List.mem_toFinset.mp hx)), ?_⟩
  rw [sumQuality_eq, List.sum_toFinset _ nd, List.sum_toFinset _ nd]
  rfl

/-- The best ordered partitions have at most `2 ^ (n - 1)` qualities. -/
theorem oFinite {q : UTM (Quality K)} {n : Nat} {f : Nat → Nat → Quality K} (hq : q.Rep n f) :
    ∃ S : Finset (Quality K), S.card ≤ 2 ^ (n - 1) ∧
      ∀ (p : F) X, oBestPartition q p = .ok X → X.quality ∈ S := by
  classical
  let of : Finset Nat → Quality K := fun C =>
    if h : ∃ L, Tiles 0 n L ∧ ∀ x, 0 < x → (x ∈ L.map Prod.fst ↔ x ∈ C) then
      sumQuality (h.choose.map (fun x => f x.1 x.2)) else Quality.zero
  refine ⟨(Finset.Ico 1 n).powerset.image of, le_trans Finset.card_image_le (by rw [Finset.card_powerset, Nat.card_Ico]),
    fun p X e => ?_⟩
  obtain ⟨R, T, C, ds, L, h1, _, h3, _, h5, _⟩ := oBest_spec hq p
  obtain rfl := Except.ok.inj (e.symm.trans h1)
  have ht : Tiles 0 n L := oSol_tiles h3.sol 0 rfl (Nat.zero_le _)
  refine Finset.mem_image.mpr ⟨(L.map Prod.fst).toFinset.erase 0, ?_, ?_⟩
  · refine Finset.mem_powerset.mpr (fun x hx => ?_)
    obtain ⟨hne, hx⟩ := Finset.mem_erase.mp hx
    obtain ⟨y, hy, rfl⟩ := List.mem_map.mp (List.mem_toFinset.mp hx)
    have := ht.bounds y hy
    exact Finset.mem_Ico.mpr ⟨by omega, by omega⟩
  · have hex : ∃ L', Tiles 0 n L' ∧ ∀ x, 0 < x → (x ∈ L'.map Prod.fst ↔ x ∈ (L.map Prod.fst).toFinset.erase 0) :=
      ⟨L, ht, fun x hx => by simp; omega⟩
    have hof : of ((L.map Prod.fst).toFinset.erase 0) = sumQuality (hex.choose.map (fun x => f x.1 x.2)) := dif_pos hex
    have hL : hex.choose = L := by
      refine tiles_ext hex.choose_spec.1 ht (fun x => ?_)
      by_cases hx : 0 < x
      · rw [hex.choose_spec.2 x hx]
        simp; omega
      · have : x = 0 := by omega
        subst this
        have z : ∀ {L : List (Nat × Nat)}, Tiles 0 n L → (0 ∈ L.map Prod.fst ↔ 0 < n) := by
          intro L h
          cases h with
          | nil => simp
          | cons _ _ _ => simp; omega
        rw [z ht, z hex.choose_spec.1]
    rw [hof, hL, h5]

/-- A bound on the number of sums over duplicate-free lists. -/
theorem sums_finite {A : Type} [DecidableEq A] (q : A → Quality K) (U : Finset A) :
    ∃ S : Finset (Quality K), S.card ≤ 2 ^ U.card ∧
      ∀ L : List A, L.Nodup → (∀ x ∈ L, x ∈ U) → sumQuality (L.map q) ∈ S := by
  classical
  refine ⟨U.powerset.image (fun S : Finset A => (⟨∑ x ∈ S, (q x).gain, ∑ x ∈ S, (q x).loss⟩ : Quality K)),
    le_trans Finset.card_image_le (by rw [Finset.card_powerset]), fun L nd h => quality_mem q U L nd h⟩

/-- The best hierarchical partitions have at most `2 ^ nodes` qualities. -/
theorem hFinite {leaves : Nat} {parents : List Int} {md : HMeta} (hmd : RightMeta leaves parents md)
    (hlt : leaves < parents.length) {q : List (Quality K)} {Q : Nat → Quality K} (hq : VRep q parents.length Q) :
    ∃ S : Finset (Quality K), S.card ≤ 2 ^ parents.length ∧
      ∀ (p : F) X, hBestPartition q md p = .ok X → X.quality ∈ S := by
  obtain ⟨S, hc, hS⟩ := sums_finite Q (Finset.range parents.length)
  rw [Finset.card_range] at hc
  refine ⟨S, hc, fun p X e => ?_⟩
  obtain ⟨R, T, A, ds, L, h1, _, h3, _, h5, _⟩ := hBest_spec hmd hlt hq p
  obtain rfl := Except.ok.inj (e.symm.trans h1)
  have hL := hSol_leafCover hmd h3.sol
  rw [h5]
  exact hS L (leafCover_nodup hmd.tree hL) (fun x hx => Finset.mem_range.mpr (hL.1 x hx))

/-- The best spatiotemporal partitions have at most `2 ^ (nodes · n²)` qualities. -/
theorem dFinite {leaves : Nat} {parents : List Int} {md : HMeta} (hmd : RightMeta leaves parents md) {n : Nat} (h0 : 0 < n)
    (hn : n ≤ 65535) {q : List (UTM (Quality K))} {Q : Nat → Nat → Nat → Quality K} (hq : MRep q parents.length n Q) :
    ∃ S : Finset (Quality K), S.card ≤ 2 ^ (parents.length * n * n) ∧
      ∀ (p : F) X, dBestPartition q md p = .ok X → X.quality ∈ S := by
  obtain ⟨S, hc, hS⟩ := sums_finite (fun x : (Nat × Nat) × Nat => Q x.1.1 x.1.2 x.2)
    ((Finset.range parents.length ×ˢ Finset.range n) ×ˢ Finset.range n)
  rw [Finset.card_product, Finset.card_product, Finset.card_range, Finset.card_range] at hc
  refine ⟨S, hc, fun p X e => ?_⟩
  obtain ⟨R, T, A, ds, L, h1, _, h3, _, h5, _⟩ := dBest_spec hmd hq h0 hn p
  obtain rfl := Except.ok.inj (e.symm.trans h1)
  have hL := dSol_cellCover hmd h0 h3.sol
  rw [h5]
  have := hS (L.map (fun r : Rect => ((r.node, r.first), r.last)))
    ((CellCover.nodup hmd.tree hL).map (by rintro ⟨a, b, c⟩ ⟨a', b', c'⟩ h; simp at h; simp [h])) (by
      intro x hx
      obtain ⟨r, hr, rfl⟩ := List.mem_map.mp hx
      have := hL.1 r hr
      simp only [Finset.mem_product, Finset.mem_range]
      omega)
  rw [List.map_map] at this
  exact this

/-- The qualities of the best partitions of a partitioner, for all parameters, are finitely many. -/
theorem isPartitioner_finite {ops : PartOps F K P T} (h : IsPartitioner ops) :
    ∃ S : Finset (Quality K), ∀ (p : F) X, ops.best p = .ok X → ops.quality X ∈ S := by
  cases h with
  | ordered q n f hq =>
    obtain ⟨S, _, hS⟩ := oFinite (F := F) hq
    exact ⟨S, hS⟩
  | hierarchical leaves parents md q Q hmd hlt hq =>
    obtain ⟨S, _, hS⟩ := hFinite (F := F) hmd hlt hq
    exact ⟨S, hS⟩
  | spatiotemporal leaves parents md n q Q hmd h0 hn hq =>
    obtain ⟨S, _, hS⟩ := dFinite (F := F) hmd h0 hn hq
    exact ⟨S, hS⟩

end Lp
