import Verif.Proofs.TogetherD

/-!
# Leaves with the same values: spatiotemporal and hierarchical data
-/

namespace Lp
open Spec
open scoped BigOperators
variable {n m leaves : Nat} {parents : List Int} {md : HMeta}

section
open Classical

/-- The leaf under `g` number `s`. -/
noncomputable def leafNo (leaves : Nat) (parents : List Int) (g s : Nat) : Nat :=
  ((leavesUnder leaves parents g).toList[s]?).getD 0

theorem leafNo_mem {g s : Nat} (hs : s < (leavesUnder leaves parents g).card) : leafNo leaves parents g s ∈ leavesUnder leaves parents g := by
  have h : s < (leavesUnder leaves parents g).toList.length := by rwa [Finset.length_toList]
  unfold leafNo
  rw [List.getElem?_eq_getElem h, Option.getD_some]
  exact Finset.mem_toList.mp (List.getElem_mem h)

theorem leafNo_unique {g l : Nat} (hl : l ∈ leavesUnder leaves parents g) :
    ∃ s, s < (leavesUnder leaves parents g).card ∧ leafNo leaves parents g s = l ∧
      ∀ s', s' < (leavesUnder leaves parents g).card → leafNo leaves parents g s' = l → s' = s := by
  obtain ⟨s, h1, h2⟩ := List.getElem_of_mem (Finset.mem_toList.mpr hl)
  refine ⟨s, by rwa [Finset.length_toList] at h1, ?_, ?_⟩
  · unfold leafNo
    rw [List.getElem?_eq_getElem h1, Option.getD_some, h2]
  · intro s' hs' e
    have h3 : s' < (leavesUnder leaves parents g).toList.length := by rwa [Finset.length_toList]
    unfold leafNo at e
    rw [List.getElem?_eq_getElem h3, Option.getD_some, ← h2] at e
    exact (List.Nodup.getElem_inj_iff (Finset.nodup_toList _)).mp e

/-- The cell that takes the place of a cell: all leaves under `g` become leaf number `s`. -/
noncomputable def leafPc (leaves : Nat) (parents : List Int) (g s : Nat) (x : Nat × Nat) : Nat × Nat :=
  if Under parents g x.1 then (leafNo leaves parents g s, x.2) else x

theorem leafPc_copying {root g : Nat} (t : IsTree leaves parents root) (hn : 0 < n) (hg : g < parents.length) :
    Copying (leavesUnder leaves parents g).card (dAll leaves parents root n) (leafPc leaves parents g) where
  pos := Finset.card_pos.mpr (leaves_nonempty t hg)
  maps := by
    rintro s hs ⟨l, x⟩ hx
    rw [mem_dAll t hn] at hx
    unfold leafPc
    split
    · rw [mem_dAll t hn]; exact ⟨(mem_leavesUnder.mp (leafNo_mem hs)).1, hx.2⟩
    · rw [mem_dAll t hn]; exact hx
  count := by
    rintro ⟨l, x⟩ hy
    have hy' := (mem_dAll t hn).mp hy
    by_cases hl : Under parents g l
    · obtain ⟨s0, h1, h2, h3⟩ := leafNo_unique (mem_leavesUnder.mpr ⟨hy'.1, hl⟩)
      rw [Finset.sum_eq_single s0]
      · have : (dAll leaves parents root n).filter (fun y => leafPc leaves parents g s0 y = (l, x)) =
            (leavesUnder leaves parents g).image (fun l => (l, x)) := by
          ext ⟨l', x'⟩
          rw [Finset.mem_filter, Finset.mem_image, mem_dAll t hn]
          unfold leafPc
          constructor
          · rintro ⟨hb, e⟩
            split at e
            · rename_i hg'
              obtain ⟨_, rfl⟩ := Prod.mk.inj e
              exact ⟨l', mem_leavesUnder.mpr ⟨hb.1, hg'⟩, rfl⟩
            · rename_i hg'
              obtain ⟨rfl, rfl⟩ := Prod.mk.inj e
              exact absurd hl hg'
          · rintro ⟨a, ha, e⟩
            obtain ⟨rfl, rfl⟩ := Prod.mk.inj e
            have ha := mem_leavesUnder.mp ha
            refine ⟨⟨ha.1, hy'.2⟩, ?_⟩
            rw [if_pos ha.2, h2]
        rw [this, Finset.card_image_of_injective _ (fun a b h => (Prod.mk.inj h).1)]
      · intro s hs hne
        rw [Finset.card_eq_zero, Finset.filter_eq_empty_iff]
        rintro ⟨l', x'⟩ _ e
        unfold leafPc at e
        split at e
        · obtain ⟨e1, _⟩ := Prod.mk.inj e
          exact hne (h3 s (Finset.mem_range.mp hs) e1)
        · rename_i hg'
          obtain ⟨rfl, rfl⟩ := Prod.mk.inj e
          exact hg' hl
      · intro h; exact absurd (Finset.mem_range.mpr h1) h
    · have : ∀ s ∈ Finset.range (leavesUnder leaves parents g).card,
          ((dAll leaves parents root n).filter (fun y => leafPc leaves parents g s y = (l, x))).card = 1 := by
        intro s hs
        rw [Finset.card_eq_one]
        refine ⟨(l, x), ?_⟩
        ext ⟨l', x'⟩
        rw [Finset.mem_filter, Finset.mem_singleton]
        unfold leafPc
        constructor
        · rintro ⟨_, e⟩
          split at e
          · obtain ⟨e1, _⟩ := Prod.mk.inj e
            rw [← e1] at hl
            exact absurd (mem_leavesUnder.mp (leafNo_mem (Finset.mem_range.mp hs))).2 hl
          · exact e
        · intro e
          rw [e]
          exact ⟨hy, by rw [if_neg hl]⟩
      rw [Finset.sum_congr rfl this, Finset.sum_const, Finset.card_range, smul_eq_mul, mul_one]

/-- The rectangle after the exchange. -/
noncomputable def leafPull (leaves : Nat) (parents : List Int) (g s : Nat) (r : Rect) : Option Rect :=
  if Under parents g r.node then
    (if Under parents r.node (leafNo leaves parents g s) then some ⟨g, r.first, r.last⟩ else none)
  else some r

theorem leafPulls {root g s : Nat} (t : IsTree leaves parents root) (hn : 0 < n) (hg : g < parents.length)
    (hs : s < (leavesUnder leaves parents g).card) {L : List Rect}
    (hL : CellCover leaves parents n L) (hf : CoarseFirst parents L) :
    Pulls leaves parents root n (leafPc leaves parents g s) (leafPull leaves parents g s) L := by
  have hno := mem_leavesUnder.mp (leafNo_mem (leaves := leaves) (parents := parents) hs)
  refine ⟨(leafPc_copying t hn hg).maps s hs, ?_, ?_, ?_⟩
  · intro r hr r' e
    have hb := hL.1 r hr
    unfold leafPull at e
    by_cases hu : Under parents g r.node
    · rw [if_pos hu] at e
      split at e
      · rename_i hrl
        obtain rfl := Option.some.inj e
        refine ⟨⟨hg, hb.2⟩, ?_⟩
        rintro ⟨l, x⟩ _
        show Under parents g l ∧ r.first ≤ x ∧ x ≤ r.last ↔ _
        unfold leafPc Rect.Has
        split
        · rename_i hl
          exact ⟨fun h => ⟨hrl, h.2⟩, fun h => ⟨hl, h.2⟩⟩
        · rename_i hl
          exact ⟨fun h => absurd h.1 hl, fun h => absurd (hu.trans h.1) hl⟩
      · cases e
    · rw [if_neg hu] at e
      obtain rfl := Option.some.inj e
      refine ⟨hb, ?_⟩
      rintro ⟨l, x⟩ _
      unfold leafPc Rect.Has
      split
      · rename_i hl
        refine and_congr_left (fun _ => ?_)
        show Under parents r.node l ↔ Under parents r.node (leafNo leaves parents g s)
        constructor
        · intro h
          rcases under_total hl h with h' | h'
          · exact absurd h' hu
          · exact h'.trans hno.2
        · intro h
          rcases under_total hno.2 h with h' | h'
          · exact absurd h' hu
          · exact h'.trans hl
      · rfl
  · intro r hr e
    unfold leafPull at e
    by_cases hu : Under parents g r.node
    · rw [if_pos hu] at e
      split at e
      · cases e
      · rename_i hrl
        rintro ⟨l, x⟩ _ ⟨h1, _⟩
        unfold leafPc at h1
        split at h1
        · exact hrl h1
        · rename_i hl
          exact hl (hu.trans h1)
    · rw [if_neg hu] at e; cases e
  · intro a ha b hb hne hu
    obtain ⟨r, hr, e⟩ := List.mem_filterMap.mp ha
    obtain ⟨r', hr', e'⟩ := List.mem_filterMap.mp hb
    unfold leafPull at e e'
    by_cases h1 : Under parents g r.node
    · rw [if_pos h1] at e
      split at e
      · obtain rfl := Option.some.inj e
        by_cases h2 : Under parents g r'.node
        · rw [if_pos h2] at e'
          split at e'
          · obtain rfl := Option.some.inj e'
            exact absurd rfl hne
          · cases e'
        · rw [if_neg h2] at e'
          obtain rfl := Option.some.inj e'
          exact absurd hu h2
      · cases e
    · rw [if_neg h1] at e
      obtain rfl := Option.some.inj e
      by_cases h2 : Under parents g r'.node
      · rw [if_pos h2] at e'
        split at e'
        · obtain rfl := Option.some.inj e'
          exact hf r hr r' hr' (fun e => h1 (e ▸ h2)) (Under.trans hu h2)
        · cases e'
      · rw [if_neg h2] at e'
        obtain rfl := Option.some.inj e'
        exact hf r hr r' hr' hne hu

end

variable {F : Type} [FloatP F ℝ]

/-- All leaves under `g` have the same values: a part under `g` has all leaves of `g`, or all values of `g` over its slices are
zero. -/
theorem dBest_leaves (r : RightMeta leaves parents md) (hn : 0 < n) (hn' : n ≤ 65535)
    {V : Nat → Nat × Nat → ℝ} (h0 : ∀ k h i, k < m → h < leaves → i < n → 0 ≤ V k (h, i)) {q : List (UTM (Quality ℝ))}
    (hq : MRep q parents.length n (fun h i j => entQ m V (dCells leaves parents ⟨h, i, j⟩)))
    (p : F) (ha : (0 : ℝ) ≤ wGain p) (hb : (0 : ℝ) ≤ wLoss p) :
    ∃ (P : DPartition F ℝ) (L : List Rect), dBestPartition q md p = .ok P ∧
      P.parts = L.map (dPartOf md (fun h i j => entQ m V (dCells leaves parents ⟨h, i, j⟩))) ∧
      ∀ g, g < parents.length →
        (∀ k l l' i, k < m → l < leaves → l' < leaves → i < n → Under parents g l → Under parents g l' → V k (l, i) = V k (l', i)) →
        ∀ x ∈ L, Under parents g x.node →
          (∀ l < leaves, Under parents g l → Under parents x.node l) ∨
          ∀ k l i, k < m → l < leaves → Under parents g l → x.first ≤ i → i ≤ x.last → V k (l, i) = 0 := by
  classical
  obtain ⟨P, L, h1, h2, hc, hf, key⟩ := dBest_copies r hn hn' h0 hq p ha hb
  refine ⟨P, L, h1, h2, ?_⟩
  intro g hg heq x hx hu
  by_cases hall : ∀ l < leaves, Under parents g l → Under parents x.node l
  · exact .inl hall
  right
  push Not at hall
  obtain ⟨l2, hl2, hgl2, hxl2⟩ := hall
  have hb := hc.1 x hx
  obtain ⟨l1, hl1, hxl1⟩ := r.tree.exists_leaf hb.1
  obtain ⟨s1, hs1, e1, _⟩ := leafNo_unique (mem_leavesUnder.mpr ⟨hl1, hu.trans hxl1⟩)
  obtain ⟨s2, hs2, e2, _⟩ := leafNo_unique (mem_leavesUnder.mpr ⟨hl2, hgl2⟩)
  intro k l i hk hl hgl hi1 hi2
  have hs := key (leavesUnder leaves parents g).card (leafPc leaves parents g) (leafPull leaves parents g) (leafPc_copying r.tree hn hg)
    (by
      rintro k hk s hs ⟨l, y⟩ hy
      rw [mem_dAll r.tree hn] at hy
      unfold leafPc
      split
      · rename_i hgl
        have hm := mem_leavesUnder.mp (leafNo_mem hs)
        exact heq k _ l y hk hm.1 hy.1 hy.2 hm.2 hgl
      · rfl)
    (fun s hs => leafPulls r.tree hn hg hs hc hf) x hx k hk s1 hs1 s2 hs2
  have hempty : preCells (dAll leaves parents md.root n) (leafPc leaves parents g) (dCells leaves parents x) s2 = ∅ := by
    unfold preCells
    rw [Finset.filter_eq_empty_iff]
    rintro ⟨l', y⟩ _ hm
    rw [mem_dCells] at hm
    unfold leafPc at hm
    split at hm
    · have := hm.2.1
      rw [e2] at this
      exact hxl2 this
    · rename_i hgl'
      exact hgl' (hu.trans hm.2.1)
  rw [hempty, Finset.sum_empty] at hs
  have hnn : ∀ y ∈ preCells (dAll leaves parents md.root n) (leafPc leaves parents g) (dCells leaves parents x) s1, 0 ≤ V k y := by
    intro y hy
    have hm := (mem_dAll r.tree hn).mp (Finset.mem_filter.mp hy).1
    exact h0 k y.1 y.2 hk hm.1 hm.2
  refine (Finset.sum_eq_zero_iff_of_nonneg hnn).mp hs (l, i) ?_
  unfold preCells
  rw [Finset.mem_filter, mem_dAll r.tree hn, mem_dCells]
  refine ⟨⟨hl, by show i < n; omega⟩, ?_⟩
  unfold leafPc
  rw [if_pos hgl]
  show leafNo leaves parents g s1 < leaves ∧ Under parents x.node (leafNo leaves parents g s1) ∧ x.first ≤ i ∧ i ≤ x.last
  rw [e1]
  exact ⟨hl1, hxl1, hi1, hi2⟩

end Lp
