import Verif.Proofs.SilentO
import Verif.Proofs.TogetherS
import Verif.Proofs.TogetherH
import Verif.Proofs.CoarseFirst
import Verif.Proofs.ResolutionS

/-!
# Silent leaves and cells in the best hierarchical and spatiotemporal partitions
-/

namespace Lp
open Spec
open scoped BigOperators
variable {m n leaves : Nat} {parents : List Int} {md : HMeta} {F : Type} [FloatP F ℝ]

theorem leavesUnder_sub {g c : Nat} (h : Under parents g c) : leavesUnder leaves parents c ⊆ leavesUnder leaves parents g := by
  intro l hl
  rw [mem_leavesUnder] at hl ⊢
  exact ⟨hl.1, h.trans hl.2⟩

open Classical in
/-- A node of a leaf cover replaced by a node below it and the other leaves. -/
theorem splitNode_cover {root : Nat} (t : IsTree leaves parents root) {L : List Nat} (hL : LeafCover leaves parents L) {g c : Nat}
    (hg : g ∈ L) (hc : c < parents.length) (hu : Under parents g c) :
    LeafCover leaves parents (c :: ((leavesUnder leaves parents g \ leavesUnder leaves parents c).toList ++ L.erase g)) := by
  constructor
  · intro x hx
    rcases List.mem_cons.mp hx with rfl | hx
    · exact hc
    rcases List.mem_append.mp hx with hx | hx
    · have := (mem_leavesUnder.mp (Finset.mem_sdiff.mp (Finset.mem_toList.mp hx)).1).1
      have := t.leavesLe
      omega
    · exact hL.1 x (List.mem_of_mem_erase hx)
  · intro l hl
    have h1 := hL.2 l hl
    rw [exactlyOne_countP] at h1 ⊢
    rw [(List.perm_cons_erase hg).countP_eq, List.countP_cons] at h1
    rw [List.countP_cons, List.countP_append]
    have hS : List.countP (fun x => decide (Under parents x l)) (leavesUnder leaves parents g \ leavesUnder leaves parents c).toList =
        if l ∈ leavesUnder leaves parents g \ leavesUnder leaves parents c then 1 else 0 := by
      have : List.countP (fun x => decide (Under parents x l)) (leavesUnder leaves parents g \ leavesUnder leaves parents c).toList =
          List.count l (leavesUnder leaves parents g \ leavesUnder leaves parents c).toList := by
        unfold List.count
        refine List.countP_congr (fun x hx => ?_)
        have hx := (mem_leavesUnder.mp (Finset.mem_sdiff.mp (Finset.mem_toList.mp hx)).1).1
        simp only [decide_eq_true_eq, beq_iff_eq]
        exact ⟨fun h => (leaf_under t hx h).symm, fun h => h ▸ .self⟩
      rw [this, (Finset.nodup_toList _).count]
      simp only [Finset.mem_toList]
    rw [hS]
    have hmem : l ∈ leavesUnder leaves parents g \ leavesUnder leaves parents c ↔ Under parents g l ∧ ¬ Under parents c l := by
      rw [Finset.mem_sdiff, mem_leavesUnder, mem_leavesUnder]
      exact ⟨fun h => ⟨h.1.2, fun h' => h.2 ⟨hl, h'⟩⟩, fun h => ⟨⟨hl, h.1⟩, fun h' => h.2 h'.2⟩⟩
    by_cases hgl : Under parents g l
    · rw [if_pos (by simpa using hgl)] at h1
      by_cases hcl : Under parents c l
      · rw [if_neg (fun h => (hmem.mp h).2 hcl), if_pos (by simpa using hcl)]; omega
      · rw [if_pos (hmem.mpr ⟨hgl, hcl⟩), if_neg (by simpa using hcl)]; omega
    · have hcl : ¬ Under parents c l := fun h => hgl (hu.trans h)
      rw [if_neg (by simpa using hgl)] at h1
      rw [if_neg (fun h => hgl (hmem.mp h).1), if_neg (by simpa using hcl)]; omega

/-- The positive values of a part are not all below a node that has only some of its leaves. -/
theorem hBest_silent (r : RightMeta leaves parents md) (hlt : leaves < parents.length)
    {V : Nat → Nat → ℝ} (h0 : ∀ k l, k < m → l < leaves → 0 ≤ V k l) {q : List (Quality ℝ)}
    (hq : VRep q parents.length (fun h => entQ m V (leavesUnder leaves parents h)))
    (p : F) (hb : (0 : ℝ) < wLoss p) :
    ∃ (P : HPartition F ℝ) (L : List Nat), hBestPartition q md p = .ok P ∧
      P.parts = L.map (hPartOf md (fun h => entQ m V (leavesUnder leaves parents h))) ∧
      ∀ g ∈ L, (∃ k < m, ∃ l < leaves, Under parents g l ∧ 0 < V k l) →
        ∀ c < parents.length, Under parents g c → (∃ l < leaves, Under parents g l ∧ ¬ Under parents c l) →
        ∃ k < m, ∃ l < leaves, Under parents g l ∧ ¬ Under parents c l ∧ 0 < V k l := by
  classical
  obtain ⟨P, ds, L, h1, h2, _, _, h5, _⟩ := hBest_first r hlt hq p
  refine ⟨P, L, h1, h2, ?_⟩
  rintro g hg ⟨k, hk, l, hl, hul, hp⟩ c hc hgc ⟨l', hl', hul', hcl'⟩
  by_contra hcon
  push Not at hcon
  have hL := hSol_leafCover r h5.mem
  obtain ⟨ds', M, hs', hperm⟩ := leafCover_hSol r (splitNode_cover r.tree hL hg hc hgc)
  have hbest := h5.best ds' M hs'
  have hz : ∀ k < m, ∀ x ∈ leavesUnder leaves parents g \ leavesUnder leaves parents c, V k x = 0 := by
    intro k hk x hx
    obtain ⟨a1, a2⟩ := Finset.mem_sdiff.mp hx
    rw [mem_leavesUnder] at a1 a2
    exact le_antisymm (hcon k hk x a1.1 a1.2 (fun h => a2 ⟨a1.1, h⟩)) (h0 k x hk a1.1)
  have hSz : ∀ x ∈ (leavesUnder leaves parents g \ leavesUnder leaves parents c).toList,
      entQ m V (leavesUnder leaves parents x) = ⟨0, 0⟩ := by
    intro x hx
    have hx := Finset.mem_toList.mp hx
    have hxl := (mem_leavesUnder.mp (Finset.mem_sdiff.mp hx).1).1
    refine entQ_zero (fun k hk y hy => ?_)
    rw [leaf_under r.tree hxl (mem_leavesUnder.mp hy).2]
    exact hz k hk x hx
  have hgain := entQ_gain_silent (leavesUnder_sub (leaves := leaves) hgc) hz
  have hlc : l ∈ leavesUnder leaves parents c := by
    by_contra h
    have := hz k hk l (Finset.mem_sdiff.mpr ⟨mem_leavesUnder.mpr ⟨hl, hul⟩, h⟩)
    linarith
  have hloss := entQ_loss_silent (Finset.ssubset_iff_of_subset (leavesUnder_sub (leaves := leaves) hgc) |>.mpr
    ⟨l', mem_leavesUnder.mpr ⟨hl', hul'⟩, fun h => hcl' (mem_leavesUnder.mp h).2⟩) hz
    (fun k hk x hx => h0 k x hk (mem_leavesUnder.mp hx).1) hk hlc hp
  have g0 : gainOf (fun h => entQ m V (leavesUnder leaves parents h)) (leavesUnder leaves parents g \ leavesUnder leaves parents c).toList = 0 := by
    unfold gainOf
    exact List.sum_eq_zero (fun x hx => by obtain ⟨a, ha, rfl⟩ := List.mem_map.mp hx; exact congrArg Quality.gain (hSz a ha))
  have l0 : lossOf (fun h => entQ m V (leavesUnder leaves parents h)) (leavesUnder leaves parents g \ leavesUnder leaves parents c).toList = 0 := by
    unfold lossOf
    exact List.sum_eq_zero (fun x hx => by obtain ⟨a, ha, rfl⟩ := List.mem_map.mp hx; exact congrArg Quality.loss (hSz a ha))
  unfold valueOf at hbest
  have ga : ∀ A B, gainOf (fun h => entQ m V (leavesUnder leaves parents h)) (A ++ B) =
    gainOf (fun h => entQ m V (leavesUnder leaves parents h)) A + gainOf (fun h => entQ m V (leavesUnder leaves parents h)) B :=
    fun A B => by simp [gainOf]
  have la : ∀ A B, lossOf (fun h => entQ m V (leavesUnder leaves parents h)) (A ++ B) =
    lossOf (fun h => entQ m V (leavesUnder leaves parents h)) A + lossOf (fun h => entQ m V (leavesUnder leaves parents h)) B :=
    fun A B => by simp [lossOf]
  rw [gainOf_perm hperm, lossOf_perm hperm, gainOf_perm (List.perm_cons_erase hg), lossOf_perm (List.perm_cons_erase hg),
    gainOf_cons, gainOf_cons, lossOf_cons, lossOf_cons, ga, la, g0, l0, hgain] at hbest
  have := mul_lt_mul_of_pos_left hloss hb
  linarith

/-- The quality of a rectangle. -/
noncomputable def dEnt (m leaves : Nat) (parents : List Int) (V : Nat → Nat × Nat → ℝ) (r : Rect) : Quality ℝ :=
  entQ m V (dCells leaves parents r)

theorem under_up {a h : Nat} (u : Under parents a h) : h = a ∨ ∃ p, ParentIs parents h p ∧ Under parents a p := by
  cases u with
  | self => exact .inl rfl
  | up h1 h2 => exact .inr ⟨_, h1, h2⟩

open Classical in
/-- Rectangles of a cell cover replaced by others with the same cells. -/
theorem replace_cover {L S : List Rect} (hL : CellCover leaves parents n L) {r : Rect} (hr : r ∈ L)
    (hS : ∀ s ∈ S, s.node < parents.length ∧ s.first ≤ s.last ∧ s.last < n)
    (hc : ∀ l t, l < leaves → t < n → S.countP (fun s => decide (s.Has parents l t)) = if r.Has parents l t then 1 else 0) :
    CellCover leaves parents n (S ++ L.erase r) := by
  constructor
  · intro s hs
    rcases List.mem_append.mp hs with hs | hs
    · exact hS s hs
    · exact hL.1 s (List.mem_of_mem_erase hs)
  · intro l t hl ht
    have h1 := hL.2 l t hl ht
    rw [exactlyOne_countP] at h1 ⊢
    rw [(List.perm_cons_erase hr).countP_eq, List.countP_cons] at h1
    rw [List.countP_append, hc l t hl ht]
    by_cases h : r.Has parents l t
    · rw [if_pos (by simpa using h)] at h1
      rw [if_pos h]; omega
    · rw [if_neg (by simpa using h)] at h1
      rw [if_neg h]; omega

/-- What is known of the best spatiotemporal partition. -/
theorem dBest_exchange (r : RightMeta leaves parents md) (hn : 0 < n) (hn' : n ≤ 65535) {V : Nat → Nat × Nat → ℝ}
    {q : List (UTM (Quality ℝ))} (hq : MRep q parents.length n (fun h i j => entQ m V (dCells leaves parents ⟨h, i, j⟩)))
    (p : F) (hb : (0 : ℝ) ≤ wLoss p) :
    ∃ (P : DPartition F ℝ) (L : List Rect), dBestPartition q md p = .ok P ∧
      P.parts = L.map (dPartOf md (fun h i j => entQ m V (dCells leaves parents ⟨h, i, j⟩))) ∧
      CellCover leaves parents n L ∧ CoarseFirst parents L ∧
      ∀ x ∈ L, ∀ S : List Rect, CellCover leaves parents n (S ++ L.erase x) → CoarseFirst parents (S ++ L.erase x) →
        gainOf (dEnt m leaves parents V) S = (dEnt m leaves parents V x).gain →
        ¬ lossOf (dEnt m leaves parents V) S < (dEnt m leaves parents V x).loss := by
  classical
  obtain ⟨P, ds, L, h1, h2, _, _, h5⟩ := dBest_first r hq hn hn' p
  refine ⟨P, L, h1, h2, dSol_cellCover r hn h5.mem, dSol_coarse r hn h5.mem, ?_⟩
  intro x hx S hc hf hg hl
  obtain ⟨ds', M, hs', hperm⟩ := coarse_dSol r hn hc hf
  have hbest := h5.best ds' M hs'
  have e : (rq (fun h i j => entQ m V (dCells leaves parents ⟨h, i, j⟩))) = dEnt m leaves parents V := rfl
  have ga : ∀ A B, gainOf (dEnt m leaves parents V) (A ++ B) = gainOf (dEnt m leaves parents V) A + gainOf (dEnt m leaves parents V) B :=
    fun A B => by simp [gainOf]
  have la : ∀ A B, lossOf (dEnt m leaves parents V) (A ++ B) = lossOf (dEnt m leaves parents V) A + lossOf (dEnt m leaves parents V) B :=
    fun A B => by simp [lossOf]
  unfold LexLe valueOf at hbest
  rw [e, gainOf_perm hperm, lossOf_perm hperm, gainOf_perm (List.perm_cons_erase hx), lossOf_perm (List.perm_cons_erase hx),
    gainOf_cons, lossOf_cons, ga, la, hg] at hbest
  have := mul_le_mul_of_nonneg_left hl.le hb
  rcases hbest with h | ⟨_, h | ⟨_, h⟩⟩ <;> linarith

theorem dEnt_quiet {V : Nat → Nat × Nat → ℝ} {x : Rect}
    (h : ∀ k l i, k < m → l < leaves → x.Has parents l i → V k (l, i) = 0) : dEnt m leaves parents V x = ⟨0, 0⟩ :=
  entQ_zero (fun k hk y hy => by
    have := mem_dCells.mp hy
    exact h k y.1 y.2 hk this.1 this.2)

/-- Cells cut off a rectangle without a positive value. -/
theorem dEnt_cut {V : Nat → Nat × Nat → ℝ} (h0 : ∀ k l i, k < m → l < leaves → i < n → 0 ≤ V k (l, i)) {x y : Rect} (hx : x.last < n)
    (hsub : ∀ l i, l < leaves → y.Has parents l i → x.Has parents l i)
    (hz : ∀ k l i, k < m → l < leaves → x.Has parents l i → ¬ y.Has parents l i → V k (l, i) = 0)
    (hne : ∃ l i, l < leaves ∧ x.Has parents l i ∧ ¬ y.Has parents l i)
    (hp : ∃ k l i, k < m ∧ l < leaves ∧ x.Has parents l i ∧ 0 < V k (l, i)) :
    (dEnt m leaves parents V y).gain = (dEnt m leaves parents V x).gain ∧
      (dEnt m leaves parents V y).loss < (dEnt m leaves parents V x).loss := by
  classical
  have hs : dCells leaves parents y ⊆ dCells leaves parents x := fun c hc => by
    rw [mem_dCells] at hc ⊢
    exact ⟨hc.1, hsub _ _ hc.1 hc.2⟩
  have hz' : ∀ k < m, ∀ c ∈ dCells leaves parents x \ dCells leaves parents y, V k c = 0 := by
    intro k hk c hc
    obtain ⟨h1, h2⟩ := Finset.mem_sdiff.mp hc
    rw [mem_dCells] at h1 h2
    exact hz k c.1 c.2 hk h1.1 h1.2 (fun h => h2 ⟨h1.1, h⟩)
  refine ⟨(entQ_gain_silent hs hz').symm, ?_⟩
  obtain ⟨l, i, hl, h1, h2⟩ := hne
  obtain ⟨k, l', i', hk, hl', h1', hp⟩ := hp
  refine entQ_loss_silent (Finset.ssubset_iff_of_subset hs |>.mpr ⟨(l, i), mem_dCells.mpr ⟨hl, h1⟩, fun h => h2 (mem_dCells.mp h).2⟩)
    hz' (fun k hk c hc => ?_) hk (x := (l', i')) ?_ hp
  · have := mem_dCells.mp hc
    have := hsub _ _ this.1 this.2
    exact h0 k c.1 c.2 hk (by assumption : _ ∧ _).1 (by have := this.2; omega)
  · rw [mem_dCells]
    refine ⟨hl', ?_⟩
    by_contra h
    have := hz k l' i' hk hl' h1' h
    linarith

/-- A part with a positive value has one in its first and in its last slice. -/
theorem dBest_silentSlices (r : RightMeta leaves parents md) (hn : 0 < n) (hn' : n ≤ 65535)
    {V : Nat → Nat × Nat → ℝ} (h0 : ∀ k h i, k < m → h < leaves → i < n → 0 ≤ V k (h, i)) {q : List (UTM (Quality ℝ))}
    (hq : MRep q parents.length n (fun h i j => entQ m V (dCells leaves parents ⟨h, i, j⟩)))
    (p : F) (hb : (0 : ℝ) ≤ wLoss p) :
    ∃ (P : DPartition F ℝ) (L : List Rect), dBestPartition q md p = .ok P ∧
      P.parts = L.map (dPartOf md (fun h i j => entQ m V (dCells leaves parents ⟨h, i, j⟩))) ∧
      ∀ x ∈ L, (∃ k l i, k < m ∧ l < leaves ∧ x.Has parents l i ∧ 0 < V k (l, i)) →
        (∃ k l, k < m ∧ l < leaves ∧ Under parents x.node l ∧ 0 < V k (l, x.first)) ∧
        (∃ k l, k < m ∧ l < leaves ∧ Under parents x.node l ∧ 0 < V k (l, x.last)) ∧
        ∀ c, ParentIs parents c x.node → (∃ l < leaves, Under parents x.node l ∧ ¬ Under parents c l) →
          (∀ y ∈ L, y.node = x.node → y.last ≤ x.last) →
          ∃ k l i, k < m ∧ l < leaves ∧ x.Has parents l i ∧ ¬ Under parents c l ∧ 0 < V k (l, i) := by
  classical
  obtain ⟨P, L, h1, h2, hc, hf, key⟩ := dBest_exchange r hn hn' hq p hb
  refine ⟨P, L, h1, h2, ?_⟩
  intro x hx hp
  obtain ⟨hxn, hxo, hxl⟩ := hc.1 x hx
  have hmem : ∀ y ∈ L.erase x, y ∈ L := fun y hy => List.mem_of_mem_erase hy
  -- two rectangles of the same node one after the other
  have two : ∀ c, x.first ≤ c → c < x.last → CellCover leaves parents n ([⟨x.node, x.first, c⟩, ⟨x.node, c + 1, x.last⟩] ++ L.erase x) ∧
      CoarseFirst parents ([⟨x.node, x.first, c⟩, ⟨x.node, c + 1, x.last⟩] ++ L.erase x) := by
    intro c g1 g2
    constructor
    · refine replace_cover hc hx ?_ ?_
      · intro s hs
        simp only [List.mem_cons, List.not_mem_nil, or_false] at hs
        rcases hs with rfl | rfl
        · exact ⟨hxn, g1, by show c < n; omega⟩
        · exact ⟨hxn, by show c + 1 ≤ x.last; omega, hxl⟩
      · intro l t _ _
        simp only [List.countP_cons, List.countP_nil, Rect.Has, decide_eq_true_eq]
        by_cases hu : Under parents x.node l
        · by_cases a1 : x.first ≤ t <;> by_cases a2 : t ≤ c <;> by_cases a3 : t ≤ x.last <;>
            simp [hu, a1, a2, a3] <;> omega
        · simp [hu]
    · intro s hs s' hs' hne hu
      have old : ∀ z ∈ [(⟨x.node, x.first, c⟩ : Rect), ⟨x.node, c + 1, x.last⟩], z.node = x.node ∧ x.first ≤ z.first ∧ z.last ≤ x.last := by
        intro z hz
        simp only [List.mem_cons, List.not_mem_nil, or_false] at hz
        rcases hz with rfl | rfl
        · exact ⟨rfl, le_rfl, by show c ≤ x.last; omega⟩
        · exact ⟨rfl, by show x.first ≤ c + 1; omega, le_rfl⟩
      rcases List.mem_append.mp hs with hs | hs <;> rcases List.mem_append.mp hs' with hs' | hs'
      · exact absurd ((old s hs).1.trans (old s' hs').1.symm) hne
      · obtain ⟨e1, _, e3⟩ := old s hs
        rw [e1] at hne hu
        have := hf x hx s' (hmem _ hs') hne hu
        omega
      · obtain ⟨e1, e2, _⟩ := old s' hs'
        rw [e1] at hne hu
        have := hf s (hmem _ hs) x hx hne hu
        omega
      · exact hf s (hmem _ hs) s' (hmem _ hs') hne hu
  refine ⟨?_, ?_, ?_⟩
  · by_contra hcon
    push Not at hcon
    have hz : ∀ k l, k < m → l < leaves → Under parents x.node l → V k (l, x.first) = 0 := fun k l hk hl hu =>
      le_antisymm (hcon k l hk hl hu) (h0 k l _ hk hl (by omega))
    have hlt : x.first < x.last := by
      obtain ⟨k, l, i, hk, hl, ⟨a1, a2, a3⟩, hp⟩ := hp
      by_contra h
      obtain rfl : i = x.first := by omega
      have := hz k l hk hl a1
      linarith
    obtain ⟨c1, c2⟩ := two x.first le_rfl hlt
    have z := dEnt_quiet (m := m) (V := V) (x := ⟨x.node, x.first, x.first⟩) (leaves := leaves) (parents := parents)
      (fun k l i hk hl ⟨a1, a2, a3⟩ => by
        obtain rfl : i = x.first := by simp only at a2 a3; omega
        exact hz k l hk hl a1)
    obtain ⟨e1, e2⟩ := dEnt_cut h0 (x := x) (y := ⟨x.node, x.first + 1, x.last⟩) hxl
      (fun l i _ ⟨a1, a2, a3⟩ => ⟨a1, by simp only at a2; omega, a3⟩)
      (fun k l i hk hl ⟨a1, a2, a3⟩ hno => by
        obtain rfl : i = x.first := by
          by_contra h
          exact hno ⟨a1, by show x.first + 1 ≤ i; omega, a3⟩
        exact hz k l hk hl a1)
      (by
        obtain ⟨l, hl, hu⟩ := r.tree.exists_leaf hxn
        exact ⟨l, x.first, hl, ⟨hu, le_rfl, hxo⟩, fun h => by have := h.2.1; simp only at this; omega⟩) hp
    refine key x hx _ c1 c2 ?_ ?_
    · simp only [gainOf_cons, gainOf_nil, z, e1]; simp
    · simp only [lossOf_cons, lossOf_nil, z]; simpa using e2
  · by_contra hcon
    push Not at hcon
    have hz : ∀ k l, k < m → l < leaves → Under parents x.node l → V k (l, x.last) = 0 := fun k l hk hl hu =>
      le_antisymm (hcon k l hk hl hu) (h0 k l _ hk hl (by omega))
    have hlt : x.first < x.last := by
      obtain ⟨k, l, i, hk, hl, ⟨a1, a2, a3⟩, hp⟩ := hp
      by_contra h
      obtain rfl : i = x.last := by omega
      have := hz k l hk hl a1
      linarith
    obtain ⟨c1, c2⟩ := two (x.last - 1) (by omega) (by omega)
    rw [show x.last - 1 + 1 = x.last by omega] at c1 c2
    have z := dEnt_quiet (m := m) (V := V) (x := ⟨x.node, x.last, x.last⟩) (leaves := leaves) (parents := parents)
      (fun k l i hk hl ⟨a1, a2, a3⟩ => by
        obtain rfl : i = x.last := by simp only at a2 a3; omega
        exact hz k l hk hl a1)
    obtain ⟨e1, e2⟩ := dEnt_cut h0 (x := x) (y := ⟨x.node, x.first, x.last - 1⟩) hxl
      (fun l i _ ⟨a1, a2, a3⟩ => ⟨a1, a2, by simp only at a3; omega⟩)
      (fun k l i hk hl ⟨a1, a2, a3⟩ hno => by
        obtain rfl : i = x.last := by
          by_contra h
          exact hno ⟨a1, a2, by show i ≤ x.last - 1; omega⟩
        exact hz k l hk hl a1)
      (by
        obtain ⟨l, hl, hu⟩ := r.tree.exists_leaf hxn
        exact ⟨l, x.last, hl, ⟨hu, hxo, le_rfl⟩, fun h => by have := h.2.2; simp only at this; omega⟩) hp
    refine key x hx _ c1 c2 ?_ ?_
    · simp only [gainOf_cons, gainOf_nil, z, e1]; simp
    · simp only [lossOf_cons, lossOf_nil, z]; simpa using e2
  · rintro c hcp ⟨l0, hl0, hu0, hnu0⟩ hlast
    by_contra hcon
    push Not at hcon
    have hz : ∀ k l i, k < m → l < leaves → x.Has parents l i → ¬ Under parents c l → V k (l, i) = 0 := fun k l i hk hl hx hu =>
      le_antisymm (hcon k l i hk hl hx hu) (h0 k l i hk hl (by have := hx.2.2; omega))
    have hxc : Under parents x.node c := .up hcp .self
    have hcn : c < parents.length := hcp.lt
    obtain ⟨C, hC⟩ : ∃ C, C = (List.range parents.length).filter (fun d => ParentIs parents d x.node) := ⟨_, rfl⟩
    have hCm : ∀ d, d ∈ C ↔ ParentIs parents d x.node := by
      intro d
      rw [hC, List.mem_filter, List.mem_range, decide_eq_true_eq]
      exact ⟨fun h => h.2, fun h => ⟨h.lt, h⟩⟩
    have hCn : C.Nodup := by rw [hC]; exact List.Nodup.filter _ List.nodup_range
    have hleafx : ∀ l < leaves, l ≠ x.node := by
      rintro l hl rfl
      exact (r.tree.leaf _ hxn).mp hl ⟨c, hcp⟩
    obtain ⟨S, hS⟩ : ∃ S, S = C.map (fun d => (⟨d, x.first, x.last⟩ : Rect)) := ⟨_, rfl⟩
    have hSm : ∀ s, s ∈ S ↔ ParentIs parents s.node x.node ∧ s.first = x.first ∧ s.last = x.last := by
      intro s
      rw [hS, List.mem_map]
      constructor
      · rintro ⟨d, hd, rfl⟩; exact ⟨(hCm d).mp hd, rfl, rfl⟩
      · rintro ⟨h1, h2, h3⟩
        refine ⟨s.node, (hCm _).mpr h1, ?_⟩
        cases s; simp only at *; subst h2; subst h3; rfl
    have cover : CellCover leaves parents n (S ++ L.erase x) := by
      refine replace_cover hc hx ?_ ?_
      · intro s hs
        obtain ⟨a1, a2, a3⟩ := (hSm s).mp hs
        exact ⟨a1.lt, by omega, by omega⟩
      · intro l t hl _
        rw [hS, List.countP_map]
        by_cases hh : x.Has parents l t
        · rw [if_pos hh]
          rcases under_iff.mp hh.1 with e | ⟨d, hd, hdl⟩
          · exact absurd e (hleafx l hl)
          · have : List.countP ((fun s : Rect => decide (s.Has parents l t)) ∘ fun d => (⟨d, x.first, x.last⟩ : Rect)) C = List.count d C := by
              unfold List.count
              refine List.countP_congr (fun e he => ?_)
              show decide (Rect.Has parents ⟨e, x.first, x.last⟩ l t) = true ↔ (e == d) = true
              rw [decide_eq_true_iff, beq_iff_eq]
              constructor
              · intro h; exact under_child_unique r.tree ((hCm e).mp he) hd h.1 hdl
              · intro h; rw [h]; exact ⟨hdl, hh.2⟩
            rw [this, hCn.count, if_pos ((hCm d).mpr hd)]
        · rw [if_neg hh, List.countP_eq_zero]
          intro e he h
          replace h : Rect.Has parents ⟨e, x.first, x.last⟩ l t := of_decide_eq_true h
          exact hh ⟨(Under.up ((hCm e).mp he) .self).trans h.1, h.2⟩
    have coarse : CoarseFirst parents (S ++ L.erase x) := by
      intro s hs s' hs' hne hu
      rcases List.mem_append.mp hs with hs | hs <;> rcases List.mem_append.mp hs' with hs' | hs'
      · exact absurd (under_child_unique r.tree ((hSm s).mp hs).1 ((hSm s').mp hs').1 hu .self) hne
      · obtain ⟨b1, b2, b3⟩ := (hSm s).mp hs
        have h := (Under.up b1 .self : Under parents x.node s.node).trans hu
        have : x.node ≠ s'.node := fun e => by
          rw [← e] at hu
          have h3 := under_antisymm r.tree hu (Under.up b1 .self)
          obtain ⟨d, _, hd⟩ := r.tree.depth
          have h4 := hd _ _ b1
          rw [h3] at h4
          omega
        have := hf x hx s' (hmem _ hs') this h
        omega
      · obtain ⟨b1, b2, b3⟩ := (hSm s').mp hs'
        have hs := hmem _ ‹s ∈ L.erase x›
        have hsx : Under parents s.node x.node := by
          rcases under_up hu with h | ⟨p, h1, h2⟩
          · exact absurd h.symm hne
          · rwa [← h1.fun b1]
        by_cases e : s.node = x.node
        · have hl1 := hlast s hs e
          have hne' : s ≠ x := by
            intro e
            have h1 := hc.2 l0 x.first hl0 (by omega)
            rw [exactlyOne_countP, (List.perm_cons_erase hx).countP_eq, List.countP_cons,
              if_pos (decide_eq_true (show x.Has parents l0 x.first from ⟨hu0, le_rfl, hxo⟩) : decide (x.Has parents l0 x.first) = true)] at h1
            have h2 : List.countP (fun y : Rect => decide (y.Has parents l0 x.first)) (L.erase x) = 0 := by omega
            rw [List.countP_eq_zero] at h2
            refine h2 s ‹s ∈ L.erase x› ?_
            rw [e]
            exact decide_eq_true (⟨hu0, le_rfl, hxo⟩ : x.Has parents l0 x.first)
          -- two rectangles of a node do not overlap
          by_contra hcon'
          have hb := hc.1 s hs
          have h1 := hc.2 l0 s.last hl0 (by omega)
          obtain ⟨k, _, hun⟩ := h1
          obtain ⟨ks, hks⟩ := List.getElem?_of_mem hs
          obtain ⟨kx, hkx⟩ := List.getElem?_of_mem hx
          have e1 := hun ks ⟨s, hks, by rw [e]; exact hu0, hb.2.1, le_rfl⟩
          have e2 := hun kx ⟨x, hkx, hu0, by omega, hl1⟩
          rw [e1] at hks
          rw [e2, hks] at hkx
          exact hne' (Option.some.inj hkx)
        · have := hf s hs x hx e hsx
          omega
      · exact hf s (hmem _ hs) s' (hmem _ hs') hne hu
    obtain ⟨e1, e2⟩ := dEnt_cut h0 (x := x) (y := ⟨c, x.first, x.last⟩) hxl
      (fun l i _ ⟨a1, a2⟩ => ⟨hxc.trans a1, a2⟩)
      (fun k l i hk hl hh hno => hz k l i hk hl hh (fun h => hno ⟨h, hh.2⟩))
      ⟨l0, x.first, hl0, ⟨hu0, le_rfl, hxo⟩, fun h => hnu0 h.1⟩ hp
    have hcS : (⟨c, x.first, x.last⟩ : Rect) ∈ S := (hSm _).mpr ⟨hcp, rfl, rfl⟩
    have hrest : ∀ s ∈ S.erase ⟨c, x.first, x.last⟩, dEnt m leaves parents V s = ⟨0, 0⟩ := by
      intro s hs
      have hSn : S.Nodup := by
        rw [hS]
        exact hCn.map (fun a b h => congrArg Rect.node h)
      obtain ⟨hne, hs⟩ := hSn.mem_erase_iff.mp hs
      obtain ⟨b1, b2, b3⟩ := (hSm s).mp hs
      refine dEnt_quiet (fun k l i hk hl hh => hz k l i hk hl ⟨(Under.up b1 .self : Under parents x.node s.node).trans hh.1,
        by have := hh.2.1; omega, by have := hh.2.2; omega⟩ (fun hcl => hne ?_))
      have := under_child_unique r.tree hcp b1 hcl hh.1
      cases s; simp only at *; subst b2; subst b3; subst this; rfl
    refine key x hx S cover coarse ?_ ?_
    · rw [gainOf_perm (List.perm_cons_erase hcS), gainOf_cons, e1]
      have : gainOf (dEnt m leaves parents V) (S.erase ⟨c, x.first, x.last⟩) = 0 := by
        unfold gainOf
        exact List.sum_eq_zero (fun z hz => by obtain ⟨a, ha, rfl⟩ := List.mem_map.mp hz; rw [hrest a ha])
      rw [this, add_zero]
    · rw [lossOf_perm (List.perm_cons_erase hcS), lossOf_cons]
      have : lossOf (dEnt m leaves parents V) (S.erase ⟨c, x.first, x.last⟩) = 0 := by
        unfold lossOf
        exact List.sum_eq_zero (fun z hz => by obtain ⟨a, ha, rfl⟩ := List.mem_map.mp hz; rw [hrest a ha])
      rw [this, add_zero]
      exact e2

end Lp
