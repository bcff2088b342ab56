import Verif.Proofs.Merge
import Verif.Proofs.OEntropy
import Verif.Proofs.HEntropy
import Verif.Proofs.DEntropy
import Verif.Proofs.Data
import Verif.Proofs.HCover
import Verif.Spec.Cover
import Verif.Spec.Tiling

/-!
# Entropy qualities of tilings, leaf covers and cell covers
-/

namespace Lp
open Spec
variable {leaves n m : Nat} {parents : List Int} {root : Nat}

/-- Slices of an interval. -/
def oCells (I : Nat × Nat) : Finset Nat := Finset.Icc I.1 I.2

/-- Cells of a rectangle. -/
noncomputable def dCells (leaves : Nat) (parents : List Int) (r : Rect) : Finset (Nat × Nat) :=
  leavesUnder leaves parents r.node ×ˢ Finset.Icc r.first r.last

theorem tiles_cuts {L : List (Nat × Nat)} (h : Tiles 0 n L) (hn : 0 < n) : Cuts oCells L (oCells (0, n - 1)) where
  ne := fun a ha => by
    have := h.bounds a ha
    exact ⟨a.1, by simp [oCells]; omega⟩
  sub := fun a ha x hx => by
    have := h.bounds a ha
    simp only [oCells, Finset.mem_Icc] at hx ⊢
    omega
  one := fun x hx => by
    simp only [oCells, Finset.mem_Icc] at hx
    have := h.exactlyOne x (by omega) (by omega)
    simpa only [oCells, Finset.mem_Icc, ExactlyOne] using this

theorem leaves_nonempty (t : IsTree leaves parents root) {h : Nat} (hh : h < parents.length) :
    (leavesUnder leaves parents h).Nonempty := by
  obtain ⟨l, hl, hu⟩ := t.exists_leaf hh
  exact ⟨l, mem_leavesUnder.mpr ⟨hl, hu⟩⟩

theorem leavesUnder_root (t : IsTree leaves parents root) : leavesUnder leaves parents root = Finset.range leaves := by
  ext l
  rw [mem_leavesUnder, Finset.mem_range]
  have := t.leavesLe
  exact ⟨fun h => h.1, fun h => ⟨h, t.reach l (by omega)⟩⟩

theorem leafCover_cuts (t : IsTree leaves parents root) {L : List Nat} (h : LeafCover leaves parents L) :
    Cuts (leavesUnder leaves parents) L (leavesUnder leaves parents root) where
  ne := fun a ha => leaves_nonempty t (h.1 a ha)
  sub := fun a ha x hx => by
    rw [leavesUnder_root t, Finset.mem_range]; exact (mem_leavesUnder.mp hx).1
  one := fun x hx => by
    have hx := (mem_leavesUnder.mp hx).1
    have := h.2 x hx
    simpa only [mem_leavesUnder, hx, true_and] using this

theorem cellCover_cuts (t : IsTree leaves parents root) {L : List Rect} (h : CellCover leaves parents n L) (hn : 0 < n) :
    Cuts (dCells leaves parents) L (dCells leaves parents ⟨root, 0, n - 1⟩) where
  ne := fun a ha => by
    have := h.1 a ha
    exact (leaves_nonempty t this.1).product (Finset.nonempty_Icc.mpr this.2.1)
  sub := fun a ha x hx => by
    have := h.1 a ha
    simp only [dCells, Finset.mem_product, mem_leavesUnder, Finset.mem_Icc] at hx ⊢
    refine ⟨⟨hx.1.1, t.reach _ ?_⟩, by omega, by omega⟩
    have := t.leavesLe
    omega
  one := fun x hx => by
    simp only [dCells, Finset.mem_product, mem_leavesUnder, Finset.mem_Icc] at hx
    have := h.2 x.1 x.2 hx.1.1 (by omega)
    simpa only [dCells, Finset.mem_product, mem_leavesUnder, Finset.mem_Icc, hx.1.1, true_and, Rect.Has] using this

theorem under_sub {a b : Nat} (h : Under parents a b) : leavesUnder leaves parents b ⊆ leavesUnder leaves parents a := by
  intro l hl
  rw [mem_leavesUnder] at hl ⊢
  exact ⟨hl.1, h.trans hl.2⟩

end Lp

namespace Lp
open Spec
variable {leaves n m : Nat} {parents : List Int} {md : HMeta}

/-- `computeQualities` on ordered data, at the level of the object. -/
theorem oq_object {v : OValues ℝ} {V : Nat → Nat → ℝ} (hv : OData v m n V) (hn : n ≤ 65535)
    (h0 : ∀ k i, k < m → i < n → 0 ≤ V k i) :
    ∃ q, (OQualities.ofValues v).computeQualities = .ok ⟨some v, some q⟩ ∧
      q.Rep n (fun i j => entQ m V (oCells (i, j))) := by
  obtain ⟨q, e, h⟩ := oqCompute_entropy hv hn h0
  refine ⟨q, ?_, h⟩
  unfold OQualities.computeQualities OQualities.ofValues
  simp only [e, okBind, pureOk]

theorem hq_object {v : HValues ℝ} (hmd : RightMeta leaves parents v.md) (hlt : leaves < parents.length)
    {V : Nat → Nat → ℝ} (hv : HData v m leaves V) (h0 : ∀ k h, k < m → h < leaves → 0 ≤ V k h) :
    ∃ q, (HQualities.ofValues v).computeQualities = .ok ⟨some v, some q, v.md⟩ ∧
      VRep q parents.length (fun h => entQ m V (leavesUnder leaves parents h)) := by
  obtain ⟨q, e, h⟩ := hqCompute_entropy hmd hv hlt h0
  refine ⟨q, ?_, h⟩
  unfold HQualities.computeQualities HQualities.ofValues
  simp only [e, okBind, pureOk]

theorem dq_object {v : DValues ℝ} (hmd : RightMeta leaves parents v.md) (hlt : leaves < parents.length)
    (hn : n ≤ 65535) (hb : leaves * n < 2147483648) {V : Nat → Nat × Nat → ℝ} (hv : DData v m leaves n V)
    (h0 : ∀ k h x, k < m → h < leaves → x < n → 0 ≤ V k (h, x)) :
    ∃ q, (DQualities.ofValues v).computeQualities = .ok ⟨some v, some q, v.md⟩ ∧
      MRep q parents.length n (fun h i j => entQ m V (dCells leaves parents ⟨h, i, j⟩)) := by
  obtain ⟨q, e, h⟩ := dqCompute_entropy hmd hlt hv hn hb h0
  refine ⟨q, ?_, h⟩
  unfold DQualities.computeQualities DQualities.ofValues
  simp only [e, okBind, pureOk]

theorem nonneg_oCells {V : Nat → Nat → ℝ} (h0 : ∀ k i, k < m → i < n → 0 ≤ V k i) {i j : Nat} (hj : j < n) :
    ∀ k < m, ∀ x ∈ oCells (i, j), 0 ≤ V k x := by
  intro k hk x hx
  simp only [oCells, Finset.mem_Icc] at hx
  exact h0 k x hk (by omega)

theorem nonneg_hCells {V : Nat → Nat → ℝ} (h0 : ∀ k h, k < m → h < leaves → 0 ≤ V k h) {h : Nat} :
    ∀ k < m, ∀ x ∈ leavesUnder leaves parents h, 0 ≤ V k x :=
  fun k hk x hx => h0 k x hk (mem_leavesUnder.mp hx).1

theorem nonneg_dCells {V : Nat → Nat × Nat → ℝ} (h0 : ∀ k h x, k < m → h < leaves → x < n → 0 ≤ V k (h, x)) {h i j : Nat}
    (hj : j < n) : ∀ k < m, ∀ x ∈ dCells leaves parents ⟨h, i, j⟩, 0 ≤ V k x := by
  intro k hk x hx
  simp only [dCells, Finset.mem_product, mem_leavesUnder, Finset.mem_Icc] at hx
  exact h0 k x.1 x.2 hk hx.1.1 (by omega)

theorem gainOf_nonneg {A : Type} {q : A → Quality ℝ} {L : List A} (h : ∀ a ∈ L, 0 ≤ (q a).gain) : 0 ≤ gainOf q L := by
  unfold gainOf
  apply List.sum_nonneg
  intro x hx
  obtain ⟨a, ha, rfl⟩ := List.mem_map.mp hx
  exact h a ha

theorem lossOf_nonneg {A : Type} {q : A → Quality ℝ} {L : List A} (h : ∀ a ∈ L, 0 ≤ (q a).loss) : 0 ≤ lossOf q L := by
  unfold lossOf
  apply List.sum_nonneg
  intro x hx
  obtain ⟨a, ha, rfl⟩ := List.mem_map.mp hx
  exact h a ha

end Lp
