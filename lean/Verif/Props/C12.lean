import Verif.Proofs.Ent
import Verif.Proofs.Norm
import Verif.Props.C06
import Verif.Props.C07
import Verif.Proofs.Samples

/-!
# C12 — normalization of hierarchical and spatiotemporal qualities

The divisor is the quality object of the root, which the loop itself overwrites: nodes numbered up to the root are
divided by the quality of the root, nodes numbered above it by `root / root`.
-/

namespace Lp.C12
open Spec

/-- What `normalize()` does to hierarchical qualities, for any arithmetic and any object. -/
theorem hierarchical {K : Type} [LD K] (v : Option (HValues K)) (md : HMeta) (N : Nat) (hr : md.root < N)
    (q : List (Quality K)) (Q : Nat → Quality K) (hq : VRep q N Q) :
    ∃ q', (HQualities.mk v (some q) md).normalize = .ok ⟨v, some q', md⟩ ∧ q'.length = N ∧
      (∀ h, h ≤ md.root →
        q'[h]? = some ⟨(Q h).gain / (Q md.root).gain, (Q h).loss / (Q md.root).loss⟩) ∧
      (∀ h, md.root < h → h < N →
        q'[h]? = some ⟨(Q h).gain / ((Q md.root).gain / (Q md.root).gain),
          (Q h).loss / ((Q md.root).loss / (Q md.root).loss)⟩) := by
  obtain ⟨q', e, h⟩ := hqNormalize_spec hq hr
  refine ⟨q', hNormalize_object e, h.len, fun x hx => ?_, fun x hx hN => ?_⟩
  · rw [h.cell x (by omega)]
    unfold nDiv
    rw [if_neg (by omega)]
    rfl
  · rw [h.cell x hN]
    unfold nDiv
    rw [if_pos hx]
    rfl

/-- In exact arithmetic with a non-zero root: nodes up to the root are normalized, nodes above the root keep their
values, and a second `normalize()` changes nothing. -/
theorem hierarchicalExact {K : Type} [Field K] [LinearOrder K] (v : Option (HValues K)) (md : HMeta) (N : Nat)
    (hr : md.root < N) (q : List (Quality K)) (Q : Nat → Quality K) (hq : VRep q N Q)
    (hg : (Q md.root).gain ≠ 0) (hl : (Q md.root).loss ≠ 0) :
    ∃ q', (HQualities.mk v (some q) md).normalize = .ok ⟨v, some q', md⟩ ∧
      (HQualities.mk v (some q') md).normalize = .ok ⟨v, some q', md⟩ ∧
      q'[md.root]? = some ⟨1, 1⟩ ∧
      (∀ h, h ≤ md.root → q'[h]? = some ⟨(Q h).gain / (Q md.root).gain, (Q h).loss / (Q md.root).loss⟩) ∧
      (∀ h, md.root < h → h < N → q'[h]? = some (Q h)) := by
  obtain ⟨q', e, h⟩ := hqNormalize_spec hq hr
  obtain ⟨q'', e', h'⟩ := hqNormalize_spec h hr
  have one := Quality.div_self' hg hl
  have r1 : (Q md.root).div (nDiv (md.root < md.root) (Q md.root)) = (⟨1, 1⟩ : Quality K) := by
    unfold nDiv; rw [if_neg (lt_irrefl _)]; exact one
  have hu : q'' = q' := by
    refine h'.unique (h.congr (fun i _ => ?_))
    rw [r1]
    unfold nDiv
    have : (⟨1, 1⟩ : Quality K).div (⟨1, 1⟩ : Quality K) = ⟨1, 1⟩ := Quality.div_one' _
    split_ifs <;> simp only [this, Quality.div_one']
  subst hu
  refine ⟨q'', hNormalize_object e, hNormalize_object e', ?_, fun x hx => ?_, fun x hx hN => ?_⟩
  · rw [h.cell _ hr, r1]
  · rw [h.cell x (by omega)]
    unfold nDiv
    rw [if_neg (by omega)]
    rfl
  · rw [h.cell x hN]
    unfold nDiv
    rw [if_pos hx, one, Quality.div_one']

/-- Non-negative data, root with the highest number and with non-zero gain and loss: after `computeQualities()` and
`normalize()` every gain and loss lies in `[0,1]` and the root has (1,1). -/
theorem hierarchicalUnit (leaves : Nat) (parents : List Int) (v : HValues ℝ) (hmd : RightMeta leaves parents v.md)
    (hlt : leaves < parents.length) (hroot : v.md.root = parents.length - 1) (m : Nat) (V : Nat → Nat → ℝ)
    (hv : HData v m leaves V) (h0 : ∀ k h, k < m → h < leaves → 0 ≤ V k h)
    (hg : gainSeries m (Finset.range leaves) V ≠ 0) (hl : lossSeries m (Finset.range leaves) V ≠ 0) :
    ∃ o q', ((HQualities.ofValues v).computeQualities >>= HQualities.normalize) = .ok o ∧
      o.normalize = .ok o ∧ o.qualities = some q' ∧ q'[v.md.root]? = some ⟨1, 1⟩ ∧
      ∀ h, h < parents.length → ∃ x, q'[h]? = some x ∧ 0 ≤ x.gain ∧ x.gain ≤ 1 ∧ 0 ≤ x.loss ∧ x.loss ≤ 1 := by
  obtain ⟨q, e, hq⟩ := hq_object hmd hlt hv h0
  have er := leavesUnder_root hmd.tree
  obtain ⟨q', h1, h2, h3, h4, _⟩ := hierarchicalExact (some v) v.md parents.length hmd.tree.rootLt q _ hq
    (by simp only [entQ, er]; exact hg) (by simp only [entQ, er]; exact hl)
  refine ⟨_, q', by rw [e]; exact h1, h2, rfl, h3, fun h hh => ⟨_, h4 h (by omega), ?_⟩⟩
  have pos : ∀ a, ∀ k < m, ∀ x ∈ leavesUnder leaves parents a, 0 ≤ V k x := fun a => nonneg_hCells h0
  have mono := entQ_mono (m := m) (V := V) (under_sub (leaves := leaves) (hmd.tree.reach h hh))
    (leaves_nonempty hmd.tree hh) (pos _)
  exact ⟨div_nonneg (gainSeries_nonneg (pos _)) (gainSeries_nonneg (pos _)),
    div_le_one_of_le₀ mono.1 (gainSeries_nonneg (pos _)),
    div_nonneg (lossSeries_nonneg (pos _)) (lossSeries_nonneg (pos _)),
    div_le_one_of_le₀ mono.2 (lossSeries_nonneg (pos _))⟩

/-- What `normalize()` does to spatiotemporal qualities, for any arithmetic. -/
theorem spatiotemporal {K : Type} [LD K] (v : DValues K) (md : HMeta) (N n : Nat) (hr : md.root < N)
    (hN : md.hsize = N) (hv : v.osize = n) (h0 : 0 < n) (hn : n ≤ 65535)
    (q : List (UTM (Quality K))) (Q : Nat → Nat → Nat → Quality K) (hq : MRep q N n Q) :
    ∃ q', (DQualities.mk (some v) (some q) md).normalize = .ok ⟨some v, some q', md⟩ ∧ q'.length = N ∧
      (∀ h i j, h ≤ md.root → i ≤ j → j < n → mget q' h i j =
        .ok ⟨(Q h i j).gain / (Q md.root 0 (n - 1)).gain, (Q h i j).loss / (Q md.root 0 (n - 1)).loss⟩) ∧
      (∀ h i j, md.root < h → h < N → i ≤ j → j < n → mget q' h i j =
        .ok ⟨(Q h i j).gain / ((Q md.root 0 (n - 1)).gain / (Q md.root 0 (n - 1)).gain),
          (Q h i j).loss / ((Q md.root 0 (n - 1)).loss / (Q md.root 0 (n - 1)).loss)⟩) := by
  obtain ⟨q', e, h⟩ := dqNormalize_spec hq hr hN h0 hn
  refine ⟨q', dNormalize_object hv h0 e, h.len, fun x i j hx hij hj => ?_, fun x i j hx hxN hij hj => ?_⟩
  · rw [h.get (by omega) hij hj]
    unfold nDiv
    rw [if_neg (by omega)]
    rfl
  · rw [h.get hxN hij hj]
    unfold nDiv
    rw [if_pos hx]
    rfl

/-- In exact arithmetic with a non-zero root, as `hierarchicalExact`. -/
theorem spatiotemporalExact {K : Type} [Field K] [LinearOrder K] (v : DValues K) (md : HMeta) (N n : Nat)
    (hr : md.root < N) (hN : md.hsize = N) (hv : v.osize = n) (h0 : 0 < n) (hn : n ≤ 65535)
    (q : List (UTM (Quality K))) (Q : Nat → Nat → Nat → Quality K) (hq : MRep q N n Q)
    (hg : (Q md.root 0 (n - 1)).gain ≠ 0) (hl : (Q md.root 0 (n - 1)).loss ≠ 0) :
    ∃ q', (DQualities.mk (some v) (some q) md).normalize = .ok ⟨some v, some q', md⟩ ∧
      (DQualities.mk (some v) (some q') md).normalize = .ok ⟨some v, some q', md⟩ ∧
      mget q' md.root 0 (n - 1) = .ok ⟨1, 1⟩ ∧
      (∀ h i j, h ≤ md.root → i ≤ j → j < n → mget q' h i j =
        .ok ⟨(Q h i j).gain / (Q md.root 0 (n - 1)).gain, (Q h i j).loss / (Q md.root 0 (n - 1)).loss⟩) ∧
      (∀ h i j, md.root < h → h < N → i ≤ j → j < n → mget q' h i j = .ok (Q h i j)) := by
  obtain ⟨q', e, h⟩ := dqNormalize_spec hq hr hN h0 hn
  obtain ⟨q'', e', h'⟩ := dqNormalize_spec h hr hN h0 hn
  have one := Quality.div_self' hg hl
  have r1 : (Q md.root 0 (n - 1)).div (nDiv (md.root < md.root) (Q md.root 0 (n - 1))) = (⟨1, 1⟩ : Quality K) := by
    unfold nDiv; rw [if_neg (lt_irrefl _)]; exact one
  have hu : q'' = q' := by
    refine h'.unique (h.congr (fun x i j _ _ _ => ?_))
    rw [r1]
    unfold nDiv
    have : (⟨1, 1⟩ : Quality K).div (⟨1, 1⟩ : Quality K) = ⟨1, 1⟩ := Quality.div_one' _
    split_ifs <;> simp only [this, Quality.div_one']
  subst hu
  refine ⟨q'', dNormalize_object hv h0 e, dNormalize_object hv h0 e', ?_, fun x i j hx hij hj => ?_,
    fun x i j hx hxN hij hj => ?_⟩
  · rw [h.get hr (Nat.zero_le _) (by omega), r1]
  · rw [h.get (by omega) hij hj]
    unfold nDiv
    rw [if_neg (by omega)]
    rfl
  · rw [h.get hxN hij hj]
    unfold nDiv
    rw [if_pos hx, one, Quality.div_one']

/-- Non-negative spatiotemporal data, root with the highest number and non-zero: everything in `[0,1]`. -/
theorem spatiotemporalUnit (leaves : Nat) (parents : List Int) (v : DValues ℝ) (hmd : RightMeta leaves parents v.md)
    (hlt : leaves < parents.length) (hroot : v.md.root = parents.length - 1) (m n : Nat) (hn0 : 0 < n) (hn : n ≤ 65535)
    (hb : leaves * n < 2147483648) (V : Nat → Nat × Nat → ℝ) (hv : DData v m leaves n V)
    (h0 : ∀ k h x, k < m → h < leaves → x < n → 0 ≤ V k (h, x))
    (hg : gainSeries m (Finset.range leaves ×ˢ Finset.Icc 0 (n - 1)) V ≠ 0)
    (hl : lossSeries m (Finset.range leaves ×ˢ Finset.Icc 0 (n - 1)) V ≠ 0) :
    ∃ o q', ((DQualities.ofValues v).computeQualities >>= DQualities.normalize) = .ok o ∧
      o.normalize = .ok o ∧ o.qualities = some q' ∧ mget q' v.md.root 0 (n - 1) = .ok ⟨1, 1⟩ ∧
      ∀ h i j, h < parents.length → i ≤ j → j < n →
        ∃ x, mget q' h i j = .ok x ∧ 0 ≤ x.gain ∧ x.gain ≤ 1 ∧ 0 ≤ x.loss ∧ x.loss ≤ 1 := by
  obtain ⟨q, e, hq⟩ := dq_object hmd hlt hn hb hv h0
  have er := leavesUnder_root hmd.tree
  obtain ⟨q', h1, h2, h3, h4, _⟩ := spatiotemporalExact v v.md parents.length n hmd.tree.rootLt hmd.hsize hv.osize hn0 hn
    q _ hq (by simp only [entQ, dCells, er]; exact hg) (by simp only [entQ, dCells, er]; exact hl)
  refine ⟨_, q', by rw [e]; exact h1, h2, rfl, h3, fun h i j hh hij hj => ⟨_, h4 h i j (by omega) hij hj, ?_⟩⟩
  have pos : ∀ a i j, j < n → ∀ k < m, ∀ x ∈ dCells leaves parents ⟨a, i, j⟩, 0 ≤ V k x :=
    fun a i j hj => nonneg_dCells h0 hj
  have sub : dCells leaves parents ⟨h, i, j⟩ ⊆ dCells leaves parents ⟨v.md.root, 0, n - 1⟩ := by
    apply Finset.product_subset_product (under_sub (hmd.tree.reach h hh))
    exact Finset.Icc_subset_Icc (Nat.zero_le _) (show j ≤ n - 1 by omega)
  have mono := entQ_mono (m := m) (V := V) sub
    ((leaves_nonempty hmd.tree hh).product (Finset.nonempty_Icc.mpr hij)) (pos _ _ _ (by omega))
  have hn1 : n - 1 < n := by omega
  exact ⟨div_nonneg (gainSeries_nonneg (pos _ _ _ hj)) (gainSeries_nonneg (pos _ _ _ hn1)),
    div_le_one_of_le₀ mono.1 (gainSeries_nonneg (pos _ _ _ hn1)),
    div_nonneg (lossSeries_nonneg (pos _ _ _ hj)) (lossSeries_nonneg (pos _ _ _ hn1)),
    div_le_one_of_le₀ mono.2 (lossSeries_nonneg (pos _ _ _ hn1))⟩

/-! ## Concrete cases -/

/-- Root 5, node 6 numbered above it: after `normalize()` node 4 has been divided by the root (8, 4), node 6 has
not. -/
example : (do let md ← mkMeta 4 [4, 4, 6, 6, 5, -1, 5]
              let o ← (HQualities.ofQualities [⟨0, 0⟩, ⟨0, 0⟩, ⟨0, 0⟩, ⟨0, 0⟩, ⟨3, 1⟩, ⟨8, 4⟩, ⟨2, 3⟩] md).normalize
              return o.qualities : Res (Option (List (Quality ℚ)))) =
    .ok (some [⟨0, 0⟩, ⟨0, 0⟩, ⟨0, 0⟩, ⟨0, 0⟩, ⟨3 / 8, 1 / 4⟩, ⟨1, 1⟩, ⟨2, 3⟩]) := by decide +kernel

/-- The same tree with the root numbered last. -/
example : (do let md ← mkMeta 4 [4, 4, 5, 5, 6, 6, -1]
              let o ← (HQualities.ofQualities [⟨0, 0⟩, ⟨0, 0⟩, ⟨0, 0⟩, ⟨0, 0⟩, ⟨3, 1⟩, ⟨2, 3⟩, ⟨8, 4⟩] md).normalize
              return o.qualities : Res (Option (List (Quality ℚ)))) =
    .ok (some [⟨0, 0⟩, ⟨0, 0⟩, ⟨0, 0⟩, ⟨0, 0⟩, ⟨3 / 8, 1 / 4⟩, ⟨2 / 8, 3 / 4⟩, ⟨1, 1⟩]) := by decide +kernel

/-- `hierarchicalUnit` applies to leaves with values 1, 2, 3, 4 under that tree. -/
example : ∃ v : HValues ℝ, RightMeta 4 [4, 4, 5, 5, 6, 6, -1] v.md ∧ v.md.root = 6 ∧
    HData v 1 4 (fun _ h => (h + 1 : ℝ)) ∧ gainSeries 1 (Finset.range 4) (fun _ h => (h + 1 : ℝ)) ≠ 0 ∧
    lossSeries 1 (Finset.range 4) (fun _ h => (h + 1 : ℝ)) ≠ 0 := by
  obtain ⟨md, hm, hr, hmd⟩ := C03.balanced 4 [4, 4, 5, 5, 6, 6, -1] 6
    (.ofCheck (fun h => if h < 4 then 2 else if h = 6 then 0 else 1) (by decide) (by decide) (by decide) (by decide))
    (.ofCheck (fun h => if h < 4 then 0 else if h = 6 then 2 else 1) (by decide) (by decide) (by decide))
  refine ⟨⟨1, md, fun h _ => .ok (h + 1 : ℝ)⟩, hmd, hr, ⟨rfl, fun _ _ _ _ => rfl⟩, ?_, ?_⟩
  · rw [ne_eq, gainSeries_zero_iff (fun k _ x _ => by positivity)]
    intro h
    have := h 0 (by norm_num) 0 (by norm_num) 1 (by norm_num) (by norm_num) (by norm_num)
    omega
  · rw [ne_eq, lossSeries_zero_iff (fun k _ x _ => by positivity)]
    intro h
    have := h 0 (by norm_num) 0 (by norm_num) 1 (by norm_num)
    norm_num at this

/-! ## The hypotheses are met by concrete inputs (`Proofs/Samples.lean`) -/

example := hierarchical none Sample.md 7 Sample.right.tree.rootLt Sample.hQ _ Sample.hRep
example := hierarchicalExact none Sample.md 7 Sample.right.tree.rootLt Sample.hQ _ Sample.hRep (by rw [Sample.root]; decide) (by rw [Sample.root]; decide)
example := hierarchicalUnit 4 Sample.tree Sample.hV Sample.right (by decide) Sample.root 2 _ Sample.h Sample.h_nonneg Sample.h_whole.1 Sample.h_whole.2
example := spatiotemporal (Sample.dOf fun _ _ => (1 : ℚ)) Sample.md 7 3 Sample.right.tree.rootLt Sample.right.hsize rfl (by decide) (by decide) Sample.dQ _ Sample.dRep
example := spatiotemporalExact (Sample.dOf fun _ _ => (1 : ℚ)) Sample.md 7 3 Sample.right.tree.rootLt Sample.right.hsize rfl (by decide) (by decide) Sample.dQ _
  Sample.dRep (by rw [Sample.root]; decide +kernel) (by rw [Sample.root]; decide +kernel)
example := spatiotemporalUnit 4 Sample.tree Sample.dV Sample.right (by decide) Sample.root 2 3 (by decide) (by decide) (by decide) _ Sample.d Sample.d_nonneg
  Sample.d_whole.1 Sample.d_whole.2

end Lp.C12
