import Verif.Proofs.Together
import Verif.Proofs.ResolutionD

/-!
# Neighbouring slices and sibling leaves with the same values: spatiotemporal data
-/

namespace Lp
open Spec
open scoped BigOperators
variable {n m leaves : Nat} {parents : List Int} {md : HMeta}

theorem filterMap_sum_mem {A B ι : Type} {g : B → Option A} {cellsA : A → Finset ι} {samp : B → Finset ι} (f : Finset ι → ℝ)
    (h0 : f ∅ = 0) : ∀ (M : List B), (∀ b ∈ M, ∀ a, g b = some a → cellsA a = samp b) → (∀ b ∈ M, g b = none → samp b = ∅) →
    ((M.filterMap g).map (fun a => f (cellsA a))).sum = (M.map (fun b => f (samp b))).sum := by
  intro M h1 h2
  induction M with
  | nil => rfl
  | cons b M ih =>
    have ih := ih (fun b hb => h1 b (by simp [hb])) (fun b hb => h2 b (by simp [hb]))
    cases hg : g b with
    | none =>
      rw [List.filterMap_cons_none hg, List.map_cons, List.sum_cons, h2 b (by simp) hg, h0, zero_add, ih]
    | some a =>
      rw [List.filterMap_cons_some hg, List.map_cons, List.map_cons, List.sum_cons, List.sum_cons, h1 b (by simp) a hg, ih]

/-- All cells. -/
noncomputable def dAll (leaves : Nat) (parents : List Int) (root n : Nat) : Finset (Nat × Nat) :=
  dCells leaves parents ⟨root, 0, n - 1⟩

theorem mem_dAll {root : Nat} (t : IsTree leaves parents root) (hn : 0 < n) {x : Nat × Nat} :
    x ∈ dAll leaves parents root n ↔ x.1 < leaves ∧ x.2 < n := by
  unfold dAll dCells
  rw [Finset.mem_product, leavesUnder_root t, Finset.mem_range, Finset.mem_Icc]
  show x.1 < leaves ∧ 0 ≤ x.2 ∧ x.2 ≤ n - 1 ↔ _
  constructor
  · rintro ⟨h1, _, h2⟩; exact ⟨h1, by omega⟩
  · rintro ⟨h1, h2⟩; exact ⟨h1, by omega, by omega⟩

theorem mem_dCells {r : Rect} {x : Nat × Nat} : x ∈ dCells leaves parents r ↔ x.1 < leaves ∧ r.Has parents x.1 x.2 := by
  unfold dCells
  rw [Finset.mem_product, mem_leavesUnder, Finset.mem_Icc]
  exact and_assoc

/-- The rectangles pulled back along `pc`. -/
structure Pulls (leaves : Nat) (parents : List Int) (root n : Nat) (pc : Nat × Nat → Nat × Nat) (pull : Rect → Option Rect)
    (L : List Rect) : Prop where
  maps : ∀ x ∈ dAll leaves parents root n, pc x ∈ dAll leaves parents root n
  ofSome : ∀ r ∈ L, ∀ r', pull r = some r' → (r'.node < parents.length ∧ r'.first ≤ r'.last ∧ r'.last < n) ∧
    ∀ x ∈ dAll leaves parents root n, (r'.Has parents x.1 x.2 ↔ r.Has parents (pc x).1 (pc x).2)
  ofNone : ∀ r ∈ L, pull r = none → ∀ x ∈ dAll leaves parents root n, ¬ r.Has parents (pc x).1 (pc x).2
  coarse : CoarseFirst parents (L.filterMap pull)

theorem Pulls.cover {root : Nat} (t : IsTree leaves parents root) (hn : 0 < n) {pc : Nat × Nat → Nat × Nat} {pull : Rect → Option Rect}
    {L : List Rect} (h : Pulls leaves parents root n pc pull L) (hL : CellCover leaves parents n L) :
    CellCover leaves parents n (L.filterMap pull) := by
  classical
  constructor
  · intro r hr
    obtain ⟨b, hb, e⟩ := List.mem_filterMap.mp hr
    exact (h.ofSome b hb r e).1
  · intro l x hl hx
    have hm : (l, x) ∈ dAll leaves parents root n := (mem_dAll t hn).mpr ⟨hl, hx⟩
    have hm' := (mem_dAll t hn).mp (h.maps _ hm)
    have := hL.2 _ _ hm'.1 hm'.2
    rw [exactlyOne_countP] at this ⊢
    rw [List.countP_filterMap, ← this]
    apply List.countP_congr
    intro r hr
    cases e : pull r with
    | none =>
      rw [Option.map_none, Option.getD_none, decide_eq_true_eq]
      have := h.ofNone r hr e _ hm
      simp [this]
    | some r' =>
      rw [Option.map_some, Option.getD_some, decide_eq_true_eq, decide_eq_true_eq]
      exact (h.ofSome r hr r' e).2 _ hm

theorem Pulls.cells {root : Nat} (t : IsTree leaves parents root) (hn : 0 < n) {pc : Nat → Nat × Nat → Nat × Nat} {s : Nat}
    {pull : Rect → Option Rect} {L : List Rect} (h : Pulls leaves parents root n (pc s) pull L) {r : Rect} (hr : r ∈ L) :
    (∀ r', pull r = some r' → dCells leaves parents r' = preCells (dAll leaves parents root n) pc (dCells leaves parents r) s) ∧
    (pull r = none → preCells (dAll leaves parents root n) pc (dCells leaves parents r) s = ∅) := by
  constructor
  · intro r' e
    obtain ⟨hb, hh⟩ := h.ofSome r hr r' e
    ext x
    unfold preCells
    rw [Finset.mem_filter, mem_dCells, mem_dCells]
    constructor
    · rintro ⟨h1, h2⟩
      have hm : x ∈ dAll leaves parents root n := (mem_dAll t hn).mpr ⟨h1, by have := h2.2; omega⟩
      exact ⟨hm, ((mem_dAll t hn).mp (h.maps x hm)).1, (hh x hm).mp h2⟩
    · rintro ⟨hm, _, h2⟩
      exact ⟨((mem_dAll t hn).mp hm).1, (hh x hm).mpr h2⟩
  · intro e
    ext x
    unfold preCells
    rw [Finset.mem_filter, mem_dCells]
    constructor
    · rintro ⟨hm, _, h2⟩
      exact absurd h2 (h.ofNone r hr e x hm)
    · intro hx; simp at hx

variable {F : Type} [FloatP F ℝ]

/-- The best partition and its pulled back versions. -/
theorem dBest_copies (r : RightMeta leaves parents md) (hn : 0 < n) (hn' : n ≤ 65535)
    {V : Nat → Nat × Nat → ℝ} (h0 : ∀ k h i, k < m → h < leaves → i < n → 0 ≤ V k (h, i)) {q : List (UTM (Quality ℝ))}
    (hq : MRep q parents.length n (fun h i j => entQ m V (dCells leaves parents ⟨h, i, j⟩)))
    (p : F) (ha : (0 : ℝ) ≤ wGain p) (hb : (0 : ℝ) ≤ wLoss p) :
    ∃ (P : DPartition F ℝ) (L : List Rect), dBestPartition q md p = .ok P ∧
      P.parts = L.map (dPartOf md (fun h i j => entQ m V (dCells leaves parents ⟨h, i, j⟩))) ∧
      CellCover leaves parents n L ∧ CoarseFirst parents L ∧
      ∀ (c : Nat) (pc : Nat → Nat × Nat → Nat × Nat) (pull : Nat → Rect → Option Rect),
        Copying c (dAll leaves parents md.root n) pc →
        (∀ k < m, ∀ s < c, ∀ x ∈ dAll leaves parents md.root n, V k (pc s x) = V k x) →
        (∀ s < c, Pulls leaves parents md.root n (pc s) (pull s) L) →
        ∀ x ∈ L, ∀ k < m, ∀ s < c, ∀ t < c,
          ∑ y ∈ preCells (dAll leaves parents md.root n) pc (dCells leaves parents x) s, V k y =
            ∑ y ∈ preCells (dAll leaves parents md.root n) pc (dCells leaves parents x) t, V k y := by
  obtain ⟨P, ds, L, h1, h2, _, _, h5⟩ := dBest_first r hq hn hn' p
  have hc := dSol_cellCover r hn h5.mem
  have hf := dSol_coarse r hn h5.mem
  refine ⟨P, L, h1, h2, hc, hf, ?_⟩
  intro c pc pull hcop hV hp
  refine LexFirst.copies (cells := dCells leaves parents) (Ls := fun s => L.filterMap (pull s)) ha hb h5 hcop hV
    (fun k hk x hx => h0 k x.1 x.2 hk ((mem_dAll r.tree hn).mp hx).1 ((mem_dAll r.tree hn).mp hx).2)
    (cellCover_cuts r.tree hc hn).sub ?_ ?_
  · intro s hs f hf0
    exact filterMap_sum_mem f hf0 L (fun b hb => ((hp s hs).cells r.tree hn hb).1) (fun b hb => ((hp s hs).cells r.tree hn hb).2)
  · intro s hs
    exact coarse_dSol r hn ((hp s hs).cover r.tree hn hc) (hp s hs).coarse

/-! ## Neighbouring slices -/

section
open Classical

/-- The cell that takes the place of a cell: slices `i` and `i + 1` of the leaves under `g` are exchanged. -/
noncomputable def timePc (parents : List Int) (g i s : Nat) (x : Nat × Nat) : Nat × Nat :=
  if Under parents g x.1 then (x.1, same2 i s x.2) else x

theorem timePc_copying {root g i : Nat} (t : IsTree leaves parents root) (hi : i + 1 < n) :
    Copying 2 (dAll leaves parents root n) (timePc parents g i) := by
  have hn : 0 < n := by omega
  have := copying_pairs (U := dAll leaves parents root n) (A := fun x => Under parents g x.1 ∧ x.2 = i)
    (B := fun x => Under parents g x.1 ∧ x.2 = i + 1) (τ := fun x => (x.1, if x.2 = i then i + 1 else i))
    (by
      rintro ⟨l, x⟩ hx ⟨h1, h2⟩
      simp only at h1 h2
      subst h2
      rw [mem_dAll t hn] at hx
      simp only [mem_dAll t hn]
      simp [h1, hx.1]; omega)
    (by
      rintro ⟨l, x⟩ hx ⟨h1, h2⟩
      simp only at h1 h2
      subst h2
      rw [mem_dAll t hn] at hx
      simp only [mem_dAll t hn]
      simp [h1, hx.1]; omega)
  have e : (fun s x => if s = 0 then (if Under parents g x.1 ∧ x.2 = i + 1 then (x.1, if x.2 = i then i + 1 else i) else x) else
      (if Under parents g x.1 ∧ x.2 = i then (x.1, if x.2 = i then i + 1 else i) else x)) = timePc parents g i := by
    funext s ⟨l, x⟩
    unfold timePc same2
    by_cases hg : Under parents g l
    · simp only [hg, true_and, if_true]
      split_ifs <;> simp_all
    · simp [hg]
  rwa [e] at this

/-- The rectangle after the exchange. -/
noncomputable def timePull (parents : List Int) (g i s : Nat) (r : Rect) : Option Rect :=
  if Under parents g r.node then
    (if edge2 i s r.first < edge2 i s (r.last + 1) then some ⟨r.node, edge2 i s r.first, edge2 i s (r.last + 1) - 1⟩ else none)
  else some r

theorem edge2_bound {i s n a : Nat} (hi : i + 1 < n) (h : a ≤ n) : edge2 i s a ≤ n := by
  unfold edge2; split_ifs <;> omega

theorem timePulls {root g i s : Nat} (t : IsTree leaves parents root) (hi : i + 1 < n) {L : List Rect}
    (hL : CellCover leaves parents n L) (hf : CoarseFirst parents L) {r0 : Rect} (h0 : r0 ∈ L) (hu0 : Under parents g r0.node)
    (hlast : r0.last = i) : Pulls leaves parents root n (timePc parents g i s) (timePull parents g i s) L := by
  have hn : 0 < n := by omega
  -- rectangles above `g` end before slice `i`
  have habove : ∀ r ∈ L, ¬ Under parents g r.node → Under parents r.node g → r.last < i := by
    intro r hr h1 h2
    have := hf r hr r0 h0 (fun e => h1 (e ▸ hu0)) (h2.trans hu0)
    have := (hL.1 r0 h0).2.1
    omega
  refine ⟨?_, ?_, ?_, ?_⟩
  · rintro ⟨l, x⟩ hx
    rw [mem_dAll t hn] at hx
    unfold timePc
    split
    · rw [mem_dAll t hn]
      refine ⟨hx.1, ?_⟩
      have := hx.2
      unfold same2
      simp only at this ⊢
      split_ifs <;> omega
    · rw [mem_dAll t hn]; exact hx
  · intro r hr r' e
    have hb := hL.1 r hr
    unfold timePull at e
    by_cases hg : Under parents g r.node
    · rw [if_pos hg] at e
      split at e
      · rename_i hlt
        obtain rfl := Option.some.inj e
        have := edge2_bound (s := s) hi (show r.last + 1 ≤ n by omega)
        refine ⟨⟨hb.1, by show edge2 i s r.first ≤ edge2 i s (r.last + 1) - 1; omega,
          by show edge2 i s (r.last + 1) - 1 < n; omega⟩, ?_⟩
        rintro ⟨l, x⟩ _
        show Under parents r.node l ∧ edge2 i s r.first ≤ x ∧ x ≤ edge2 i s (r.last + 1) - 1 ↔ _
        unfold timePc Rect.Has
        by_cases hl : Under parents r.node l
        · have hgl : Under parents g (l, x).1 := hg.trans hl
          rw [if_pos hgl]
          simp only [hl, true_and]
          rw [edge2_le]
          refine and_congr_right (fun _ => ?_)
          rw [← Nat.lt_add_one_iff (m := x), Nat.sub_add_cancel (by omega), lt_edge2, Nat.lt_add_one_iff]
        · split <;> simp [hl]
      · cases e
    · rw [if_neg hg] at e
      obtain rfl := Option.some.inj e
      refine ⟨hb, ?_⟩
      rintro ⟨l, x⟩ _
      unfold timePc Rect.Has
      split
      · rename_i hgl
        refine and_congr_right (fun hl => ?_)
        rcases under_total hgl hl with h | h
        · exact absurd h hg
        · have := habove r hr hg h
          unfold same2
          simp only
          split_ifs <;> omega
      · rfl
  · intro r hr e
    unfold timePull at e
    by_cases hg : Under parents g r.node
    · rw [if_pos hg] at e
      split at e
      · cases e
      · rename_i hlt
        rintro ⟨l, x⟩ _ ⟨h1, h2, h3⟩
        unfold timePc at h1 h2 h3
        split at h1
        · rename_i hgl
          rw [if_pos hgl] at h2 h3
          rw [← edge2_le] at h2
          rw [← Nat.lt_add_one_iff, ← lt_edge2] at h3
          omega
        · rename_i hgl
          exact hgl (hg.trans h1)
    · rw [if_neg hg] at e; cases e
  · intro a ha b hb hne hu
    obtain ⟨r, hr, e⟩ := List.mem_filterMap.mp ha
    obtain ⟨r', hr', e'⟩ := List.mem_filterMap.mp hb
    unfold timePull at e e'
    by_cases hg : Under parents g r.node
    · rw [if_pos hg] at e
      split at e
      · obtain rfl := Option.some.inj e
        by_cases hg' : Under parents g r'.node
        · rw [if_pos hg'] at e'
          split at e'
          · obtain rfl := Option.some.inj e'
            have := hf r hr r' hr' hne hu
            have : edge2 i s (r.last + 1) ≤ edge2 i s r'.first := edge2_mono (by omega)
            show edge2 i s (r.last + 1) - 1 < edge2 i s r'.first
            omega
          · cases e'
        · rw [if_neg hg'] at e'
          obtain rfl := Option.some.inj e'
          exact absurd (hg.trans hu) hg'
      · cases e
    · rw [if_neg hg] at e
      obtain rfl := Option.some.inj e
      by_cases hg' : Under parents g r'.node
      · rw [if_pos hg'] at e'
        split at e'
        · obtain rfl := Option.some.inj e'
          have h1 := hf r hr r' hr' hne hu
          have h2 : r.last < i := by
            rcases under_total hu hg' with h | h
            · exact habove r hr hg h
            · exact absurd h hg
          show r.last < edge2 i s r'.first
          unfold edge2
          split_ifs <;> omega
        · cases e'
      · rw [if_neg hg'] at e'
        obtain rfl := Option.some.inj e'
        exact hf r hr r' hr' hne hu

end

/-- Slices `i` and `i + 1` have the same values under `g`: a part under `g` that ends with slice `i` has only zeros there. -/
theorem dBest_time (r : RightMeta leaves parents md) (hn : 0 < n) (hn' : n ≤ 65535)
    {V : Nat → Nat × Nat → ℝ} (h0 : ∀ k h i, k < m → h < leaves → i < n → 0 ≤ V k (h, i)) {q : List (UTM (Quality ℝ))}
    (hq : MRep q parents.length n (fun h i j => entQ m V (dCells leaves parents ⟨h, i, j⟩)))
    (p : F) (ha : (0 : ℝ) ≤ wGain p) (hb : (0 : ℝ) ≤ wLoss p) :
    ∃ (P : DPartition F ℝ) (L : List Rect), dBestPartition q md p = .ok P ∧
      P.parts = L.map (dPartOf md (fun h i j => entQ m V (dCells leaves parents ⟨h, i, j⟩))) ∧
      ∀ g i, i + 1 < n → (∀ k l, k < m → l < leaves → Under parents g l → V k (l, i + 1) = V k (l, i)) →
        ∀ x ∈ L, Under parents g x.node → x.last = i → ∀ k l, k < m → l < leaves → Under parents x.node l → V k (l, i) = 0 := by
  classical
  obtain ⟨P, L, h1, h2, hc, hf, key⟩ := dBest_copies r hn hn' h0 hq p ha hb
  refine ⟨P, L, h1, h2, ?_⟩
  intro g i hi heq x hx hg hlast k l hk hl hxl
  have hs := key 2 (timePc parents g i) (timePull parents g i) (timePc_copying r.tree hi)
    (by
      rintro k hk s _ ⟨l, y⟩ hy
      rw [mem_dAll r.tree hn] at hy
      unfold timePc
      split
      · rename_i hgl
        have := heq k l hk hy.1 hgl
        unfold same2
        simp only
        split_ifs
        · subst_vars; exact this.symm
        · rfl
        · subst_vars; exact this
        · rfl
      · rfl)
    (fun s _ => timePulls r.tree hi hc hf hx hg hlast) x hx k hk 0 (by norm_num) 1 (by norm_num)
  have hb := hc.1 x hx
  have hmem : ∀ s y, y ∈ preCells (dAll leaves parents md.root n) (timePc parents g i) (dCells leaves parents x) s ↔
      y.1 < leaves ∧ y.2 < n ∧ Under parents x.node y.1 ∧ x.first ≤ same2 i s y.2 ∧ same2 i s y.2 ≤ x.last := by
    rintro s ⟨l, y⟩
    unfold preCells
    rw [Finset.mem_filter, mem_dAll r.tree hn, mem_dCells]
    unfold timePc Rect.Has
    constructor
    · rintro ⟨⟨h1, h2⟩, h3, h4⟩
      split at h3
      · rename_i hgl
        rw [if_pos hgl] at h4
        exact ⟨h1, h2, h4⟩
      · rename_i hgl
        rw [if_neg hgl] at h4
        exact absurd (hg.trans h4.1) hgl
    · rintro ⟨h1, h2, h3, h4⟩
      rw [if_pos (hg.trans h3)]
      exact ⟨⟨h1, h2⟩, h1, h3, h4⟩
  have hsub : insert (l, i) (preCells (dAll leaves parents md.root n) (timePc parents g i) (dCells leaves parents x) 1) ⊆
      preCells (dAll leaves parents md.root n) (timePc parents g i) (dCells leaves parents x) 0 := by
    intro y hy
    rw [Finset.mem_insert, hmem] at hy
    rw [hmem]
    rcases hy with rfl | ⟨a1, a2, a3, a4⟩
    · refine ⟨hl, by show i < n; omega, hxl, ?_⟩
      show x.first ≤ same2 i 0 i ∧ same2 i 0 i ≤ x.last
      simp [same2]; omega
    · refine ⟨a1, a2, a3, ?_⟩
      unfold same2 at a4 ⊢
      split_ifs at a4 ⊢ <;> omega
  have hnot : (l, i) ∉ preCells (dAll leaves parents md.root n) (timePc parents g i) (dCells leaves parents x) 1 := by
    rw [hmem]
    rintro ⟨_, _, _, _, h⟩
    simp [same2] at h
    omega
  have hle := Finset.sum_le_sum_of_subset_of_nonneg (f := V k) hsub
    (fun y hy _ => by
      have hm := (mem_dAll r.tree hn).mp (Finset.mem_filter.mp hy).1
      exact h0 k y.1 y.2 hk hm.1 hm.2)
  rw [Finset.sum_insert hnot] at hle
  have := h0 k l i hk hl (by omega)
  linarith

end Lp
