import Verif.Proofs.Ent
import Verif.Props.C05
import Verif.Props.C06
import Verif.Props.C07
import Verif.Proofs.Samples

/-!
# C10 — zero loss means homogeneous, zero gain means at most one positive value
-/

namespace Lp.C10
open Spec

/-- Ordered data: an interval has loss 0 exactly when each series is constant on it, gain 0 exactly when each series
has at most one positive value on it. -/
theorem ordered (v : OValues ℝ) (m n : Nat) (V : Nat → Nat → ℝ) (hv : OData v m n V) (hn : n ≤ 65535)
    (h0 : ∀ k i, k < m → i < n → 0 ≤ V k i) :
    ∃ q, (OQualities.ofValues v).computeQualities = .ok ⟨some v, some q⟩ ∧
      ∀ i j, i ≤ j → j < n → ∃ x, q.get i j = .ok x ∧
        (x.loss = 0 ↔ ∀ k, k < m → ∀ a b, i ≤ a → a ≤ j → i ≤ b → b ≤ j → V k a = V k b) ∧
        (x.gain = 0 ↔ ∀ k, k < m → ∀ a b, i ≤ a → a ≤ j → i ≤ b → b ≤ j → 0 < V k a → 0 < V k b → a = b) := by
  obtain ⟨q, e, hq⟩ := oq_object hv hn h0
  refine ⟨q, e, fun i j hij hj => ⟨_, hq.get hij hj, ?_, ?_⟩⟩
  · rw [entQ, lossSeries_zero_iff (nonneg_oCells h0 hj)]
    simp only [oCells, Finset.mem_Icc]
    exact ⟨fun h k hk a b h1 h2 h3 h4 => h k hk a ⟨h1, h2⟩ b ⟨h3, h4⟩,
      fun h k hk a h1 b h2 => h k hk a b h1.1 h1.2 h2.1 h2.2⟩
  · rw [entQ, gainSeries_zero_iff (nonneg_oCells h0 hj)]
    simp only [oCells, Finset.mem_Icc]
    exact ⟨fun h k hk a b h1 h2 h3 h4 => h k hk a ⟨h1, h2⟩ b ⟨h3, h4⟩,
      fun h k hk a h1 b h2 => h k hk a b h1.1 h1.2 h2.1 h2.2⟩

/-- Hierarchical data: the same for the leaves below a node. -/
theorem hierarchical (leaves : Nat) (parents : List Int) (v : HValues ℝ) (hmd : RightMeta leaves parents v.md)
    (hlt : leaves < parents.length) (m : Nat) (V : Nat → Nat → ℝ) (hv : HData v m leaves V)
    (h0 : ∀ k h, k < m → h < leaves → 0 ≤ V k h) :
    ∃ q, (HQualities.ofValues v).computeQualities = .ok ⟨some v, some q, v.md⟩ ∧
      ∀ h, h < parents.length → ∃ x, q[h]? = some x ∧
        (x.loss = 0 ↔ ∀ k, k < m → ∀ a b, a < leaves → b < leaves → Under parents h a → Under parents h b →
          V k a = V k b) ∧
        (x.gain = 0 ↔ ∀ k, k < m → ∀ a b, a < leaves → b < leaves → Under parents h a → Under parents h b →
          0 < V k a → 0 < V k b → a = b) := by
  obtain ⟨q, e, hq⟩ := hq_object hmd hlt hv h0
  refine ⟨q, e, fun h hh => ⟨_, hq.cell h hh, ?_, ?_⟩⟩
  · rw [entQ, lossSeries_zero_iff (nonneg_hCells h0)]
    simp only [mem_leavesUnder]
    exact ⟨fun h k hk a b h1 h2 h3 h4 => h k hk a ⟨h1, h3⟩ b ⟨h2, h4⟩,
      fun h k hk a h1 b h2 => h k hk a b h1.1 h2.1 h1.2 h2.2⟩
  · rw [entQ, gainSeries_zero_iff (nonneg_hCells h0)]
    simp only [mem_leavesUnder]
    exact ⟨fun h k hk a b h1 h2 h3 h4 => h k hk a ⟨h1, h3⟩ b ⟨h2, h4⟩,
      fun h k hk a h1 b h2 => h k hk a b h1.1 h2.1 h1.2 h2.2⟩

/-- Spatiotemporal data: the same for the cells of a rectangle. -/
theorem spatiotemporal (leaves : Nat) (parents : List Int) (v : DValues ℝ) (hmd : RightMeta leaves parents v.md)
    (hlt : leaves < parents.length) (m n : Nat) (hn : n ≤ 65535) (hb : leaves * n < 2147483648)
    (V : Nat → Nat × Nat → ℝ) (hv : DData v m leaves n V)
    (h0 : ∀ k h x, k < m → h < leaves → x < n → 0 ≤ V k (h, x)) :
    ∃ q, (DQualities.ofValues v).computeQualities = .ok ⟨some v, some q, v.md⟩ ∧
      ∀ h i j, h < parents.length → i ≤ j → j < n → ∃ x, mget q h i j = .ok x ∧
        (x.loss = 0 ↔ ∀ k, k < m → ∀ a b, a.1 < leaves → b.1 < leaves →
          (⟨h, i, j⟩ : Rect).Has parents a.1 a.2 → (⟨h, i, j⟩ : Rect).Has parents b.1 b.2 → V k a = V k b) ∧
        (x.gain = 0 ↔ ∀ k, k < m → ∀ a b, a.1 < leaves → b.1 < leaves →
          (⟨h, i, j⟩ : Rect).Has parents a.1 a.2 → (⟨h, i, j⟩ : Rect).Has parents b.1 b.2 →
          0 < V k a → 0 < V k b → a = b) := by
  obtain ⟨q, e, hq⟩ := dq_object hmd hlt hn hb hv h0
  refine ⟨q, e, fun h i j hh hij hj => ⟨_, hq.get hh hij hj, ?_, ?_⟩⟩
  · rw [entQ, lossSeries_zero_iff (nonneg_dCells h0 hj)]
    simp only [dCells, Finset.mem_product, mem_leavesUnder, Finset.mem_Icc, Rect.Has]
    exact ⟨fun h k hk a b h1 h2 h3 h4 => h k hk a ⟨⟨h1, h3.1⟩, h3.2⟩ b ⟨⟨h2, h4.1⟩, h4.2⟩,
      fun h k hk a h1 b h2 => h k hk a b h1.1.1 h2.1.1 ⟨h1.1.2, h1.2⟩ ⟨h2.1.2, h2.2⟩⟩
  · rw [entQ, gainSeries_zero_iff (nonneg_dCells h0 hj)]
    simp only [dCells, Finset.mem_product, mem_leavesUnder, Finset.mem_Icc, Rect.Has]
    exact ⟨fun h k hk a b h1 h2 h3 h4 => h k hk a ⟨⟨h1, h3.1⟩, h3.2⟩ b ⟨⟨h2, h4.1⟩, h4.2⟩,
      fun h k hk a h1 b h2 => h k hk a b h1.1.1 h2.1.1 ⟨h1.1.2, h1.2⟩ ⟨h2.1.2, h2.2⟩⟩

/-- Data 3, 3, 0: the pair `[0,1]` has loss 0 and non-zero gain, the pair `[1,2]` has gain 0 and non-zero loss. -/
example : ∃ q, (OQualities.ofValues (OValuesN1.ofVec ([3, 3, 0] : List ℝ)).toOValues).computeQualities =
      .ok ⟨some (OValuesN1.ofVec [3, 3, 0]).toOValues, some q⟩ ∧
      (∃ x, q.get 0 1 = .ok x ∧ x.loss = 0 ∧ x.gain ≠ 0) ∧ (∃ x, q.get 1 2 = .ok x ∧ x.loss ≠ 0 ∧ x.gain = 0) := by
  obtain ⟨q, h1, h2⟩ := ordered (OValuesN1.ofVec [3, 3, 0]).toOValues 1 3 _
    (OValuesN1.ofVec_holds (O := 3) (fun i => if i = 2 then (0 : ℝ) else 3)).data (by norm_num)
    (fun k i _ _ => by split_ifs <;> norm_num)
  obtain ⟨x, e, hl, hg⟩ := h2 0 1 (by norm_num) (by norm_num)
  obtain ⟨y, e', hl', hg'⟩ := h2 1 2 (by norm_num) (by norm_num)
  refine ⟨q, h1, ⟨x, e, hl.mpr ?_, ?_⟩, ⟨y, e', ?_, hg'.mpr ?_⟩⟩
  · intro k _ a b _ ha _ hb
    have : a ≠ 2 ∧ b ≠ 2 := by omega
    simp [this]
  · rw [ne_eq, hg]
    intro h
    have := h 0 (by norm_num) 0 1 (by norm_num) (by norm_num) (by norm_num) (by norm_num) (by norm_num) (by norm_num)
    omega
  · rw [ne_eq, hl']
    intro h
    have := h 0 (by norm_num) 1 2 (by norm_num) (by norm_num) (by norm_num) (by norm_num)
    norm_num at this
  · intro k _ a b h1 ha h2 hb pa pb
    have : a ≠ 2 := by rintro rfl; norm_num at pa
    have : b ≠ 2 := by rintro rfl; norm_num at pb
    omega

/-! ## The hypotheses are met by concrete inputs (`Proofs/Samples.lean`) -/

example := hierarchical 4 Sample.tree Sample.hV Sample.right (by decide) 2 _ Sample.h Sample.h_nonneg
example := spatiotemporal 4 Sample.tree Sample.dV Sample.right (by decide) 2 3 (by decide) (by decide) _ Sample.d Sample.d_nonneg

end Lp.C10
