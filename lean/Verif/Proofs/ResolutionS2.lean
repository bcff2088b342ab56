import Verif.Proofs.ResolutionS
import Verif.Proofs.Renumber

/-!
# Finer leaves: the best spatiotemporal partitions
-/

namespace Lp
open Spec
open scoped BigOperators
variable {c n m leaves : Nat} {parents : List Int} {md md' : HMeta}

/-- The metadata of the finer hierarchy with the children of old nodes in the old order. -/
def orderedMeta (c leaves : Nat) (parents : List Int) (md md' : HMeta) : HMeta :=
  { md' with children := (List.range (finerTree c leaves parents).length).map (fun y =>
      if leaves * c ≤ y ∧ ¬ y - leaves * c < leaves then ((md.children[y - leaves * c]?).getD []).map (fun x => leaves * c + x)
      else (md'.children[y]?).getD []) }

theorem orderedMeta_children {y : Nat} (hy : y < (finerTree c leaves parents).length) :
    (orderedMeta c leaves parents md md').children[y]? = some (if leaves * c ≤ y ∧ ¬ y - leaves * c < leaves then
      ((md.children[y - leaves * c]?).getD []).map (fun x => leaves * c + x) else (md'.children[y]?).getD []) := by
  unfold orderedMeta
  rw [List.getElem?_map, List.getElem?_range hy, Option.map_some]

theorem orderedMeta_right (r : RightMeta leaves parents md) (r' : RightMeta (leaves * c) (finerTree c leaves parents) md') :
    RightMeta (leaves * c) (finerTree c leaves parents) (orderedMeta c leaves parents md md') where
  tree := r'.tree
  hsize := r'.hsize
  leaveSize := r'.leaveSize
  parentsEq := r'.parentsEq
  pathNodup := r'.pathNodup
  pathMem := r'.pathMem
  pathLeaves := r'.pathLeaves
  pathOrder := r'.pathOrder
  childrenLen := by unfold orderedMeta; simp
  children := by
    intro y hy
    refine ⟨_, orderedMeta_children hy, ?_⟩
    split
    · rename_i h
      obtain ⟨a, rfl⟩ := Nat.exists_eq_add_of_le h.1
      rw [Nat.add_sub_cancel_left] at h ⊢
      rw [finerTree_length] at hy
      obtain ⟨ch, h1, h2, h3⟩ := r.children a (by omega)
      rw [h1, Option.getD_some]
      refine ⟨h2.map (fun x y hxy => by simpa using hxy), fun z => ?_⟩
      rw [List.mem_map]
      constructor
      · rintro ⟨x, hx, rfl⟩
        exact finer_parent_old.mpr ⟨a, rfl, (h3 x).mp hx⟩
      · intro hp
        by_cases hz : z < leaves * c
        · rw [finer_parent_new hz] at hp
          have := div_lt_leaves hz
          generalize z / c = w at *
          omega
        · obtain ⟨z0, rfl⟩ := Nat.exists_eq_add_of_le (not_lt.mp hz)
          obtain ⟨p0, e, hp0⟩ := finer_parent_old.mp hp
          obtain rfl : a = p0 := by omega
          exact ⟨z0, (h3 z0).mpr hp0, rfl⟩
    · obtain ⟨ch, h1, h2, h3⟩ := r'.children y hy
      rw [h1, Option.getD_some]
      exact ⟨h2, h3⟩
  size := r'.size

theorem renumber_id (parents : List Int) : Renumbering parents parents (fun x => x) where
  length := rfl
  lt := fun _ h => h
  inj := fun _ _ _ _ h => h
  parent := fun _ _ _ _ => Iff.rfl

/-- The best partitions of the data and of the data with finer leaves. -/
theorem dBest_finerS {F : Type} [FloatP F ℝ] (r : RightMeta leaves parents md) (hc : 0 < c)
    (r' : RightMeta (leaves * c) (finerTree c leaves parents) md') (hn : 0 < n) (hn' : n ≤ 65535)
    {V : Nat → Nat × Nat → ℝ} (h0 : ∀ k h i, k < m → h < leaves → i < n → 0 ≤ V k (h, i)) {q q' : List (UTM (Quality ℝ))}
    (hq : MRep q parents.length n (fun h i j => entQ m V (dCells leaves parents ⟨h, i, j⟩)))
    (hq' : MRep q' (finerTree c leaves parents).length n
      (fun h i j => entQ m (finerS c V) (dCells (leaves * c) (finerTree c leaves parents) ⟨h, i, j⟩)))
    (p : F) (ha : (0 : ℝ) ≤ wGain p) (hb : (0 : ℝ) ≤ wLoss p) :
    ∃ (P P' : DPartition F ℝ), dBestPartition q md p = .ok P ∧ dBestPartition q' md' p = .ok P' ∧
      P'.quality = ⟨P.quality.gain + total m V (Finset.range leaves ×ˢ Finset.range n) * Real.logb 2 c, P.quality.loss⟩ ∧
      (1 < c → (∀ h i, h < leaves → i < n → ∃ k < m, 0 < V k (h, i)) →
        (P'.parts.map (fun x => (x.h, x.start, x.end))).Perm (P.parts.map (fun x => (leaves * c + x.h, x.start, x.end)))) := by
  have ro := orderedMeta_right (c := c) r r'
  obtain ⟨Po, P', o1, o2, o3, o4⟩ := dBest_renumber (F := F) (K := ℝ) (fun a b c => by ring) (renumber_id (finerTree c leaves parents)) ro r'
    hn hn' hq' hq' (fun _ _ _ _ _ _ => rfl) p
  obtain ⟨P, ds, L, h1, h2, h3, _, h5⟩ := dBest_first r hq hn hn' p
  obtain ⟨Po', ds', L', g1, g2, g3, _, g5⟩ := dBest_first ro hq' hn hn' p
  obtain rfl : Po = Po' := Except.ok.inj (o1.symm.trans g1)
  refine ⟨P, P', h1, o2, ?_⟩
  rw [o4]
  have t := r.tree
  have hroot : (orderedMeta c leaves parents md md').root = leaves * c + md.root := by
    have t1 := finer_tree (c := c) t hc
    have := ro.tree.rootPar
    by_contra hne
    obtain ⟨y, _, hy⟩ := t1.other _ ro.tree.rootLt hne
    unfold ParentIs at hy
    rw [this] at hy
    have := Option.some.inj hy
    omega
  have hU : dCells leaves parents ⟨md.root, 0, n - 1⟩ = Finset.range leaves ×ˢ Finset.range n := by
    ext x
    simp only [dCells, Finset.mem_product, leavesUnder_root t, Finset.mem_Icc, Finset.mem_range]
    omega
  have hw : ∀ k < m, ∀ s < c, ∀ x ∈ dCells leaves parents ⟨md.root, 0, n - 1⟩, finerS c V k (c * x.1 + s, x.2) = V k x / c :=
    fun k _ s hs x _ => finerS_piece hs
  have h0' : ∀ k < m, ∀ x ∈ dCells leaves parents ⟨md.root, 0, n - 1⟩, 0 ≤ V k x := by
    intro k hk x hx
    rw [hU, Finset.mem_product, Finset.mem_range, Finset.mem_range] at hx
    exact h0 k x.1 x.2 hk hx.1 hx.2
  have hok : ∀ s ∈ [(md.root, 0)], s.1 < parents.length ∧ s.2 < n := by
    intro s hs
    obtain rfl := List.mem_singleton.mp hs
    exact ⟨t.rootLt, hn⟩
  have hst : [(md.root, 0)].map (fun s : Nat × Nat => (leaves * c + s.1, s.2)) = [((orderedMeta c leaves parents md md').root, 0)] := by
    rw [hroot]; rfl
  have hup : ∀ ds L, Sol (dDecs leaves md.children n) [(md.root, 0)] ds L →
      gainOf (fun x => entQ m (finerS c V) (dCells (leaves * c) (finerTree c leaves parents) x)) (L.map (leafPieces c leaves)) =
        gainOf (fun x => entQ m V (dCells leaves parents x)) L + total m V (dCells leaves parents ⟨md.root, 0, n - 1⟩) * Real.logb 2 c ∧
      lossOf (fun x => entQ m (finerS c V) (dCells (leaves * c) (finerTree c leaves parents) x)) (L.map (leafPieces c leaves)) =
        lossOf (fun x => entQ m V (dCells leaves parents x)) L := by
    intro ds L hs
    have hcut := cellCover_cuts t (dSol_cellCover r hn hs) hn
    exact pieces_sum hcut (fun I hI => entQ_pieces hc (s_pieces hc I) (fun k hk s hs x hx => hw k hk s hs x (hcut.sub I hI hx))
        (fun k hk x hx => h0' k hk x (hcut.sub I hI hx)))
  have hsam : ∀ ds M, Sol (dDecs (leaves * c) (orderedMeta c leaves parents md md').children n)
      ([(md.root, 0)].map (fun s : Nat × Nat => (leaves * c + s.1, s.2))) ds M →
      CellCover (leaves * c) (finerTree c leaves parents) n M ∧ CoarseFirst (finerTree c leaves parents) M := by
    intro ds M hs
    rw [hst] at hs
    exact ⟨dSol_cellCover ro hn hs, dSol_coarse ro hn hs⟩
  have sim : Sim (dDecs leaves md.children n) (dDecs (leaves * c) (orderedMeta c leaves parents md md').children n)
      (fun s => (leaves * c + s.1, s.2)) (leafPieces c leaves)
      (sNum leaves) (fun s => s.1 < parents.length ∧ s.2 < n) (fun r => leaves * c ≤ r.node) := by
    refine s_sim t.leavesLe ?_ ?_ ?_
    · intro h hh hl
      rw [orderedMeta_children (by rw [finerTree_length]; omega), Option.getD_some,
        if_pos ⟨by omega, by omega⟩, Nat.add_sub_cancel_left]
    · intro h hh x hx
      obtain ⟨ch, e1, _, e3⟩ := r.children h hh
      rw [e1] at hx
      exact ((e3 x).mp hx).lt
    · intro h hh
      have hlt := t.leavesLe
      have hy : leaves * c + h < (finerTree c leaves parents).length := by rw [finerTree_length]; omega
      obtain ⟨ch, e1, _, e3⟩ := r'.children _ hy
      rw [orderedMeta_children hy, Option.getD_some, if_neg (by omega), e1, Option.getD_some]
      have hpar : ∀ x ∈ ch, x < leaves * c := by
        intro x hx
        by_contra hge
        obtain ⟨x0, rfl⟩ := Nat.exists_eq_add_of_le (not_lt.mp hge)
        obtain ⟨p0, e, hp0⟩ := finer_parent_old.mp ((e3 _).mp hx)
        obtain rfl : h = p0 := by omega
        exact (t.leaf h (by omega)).mp hh ⟨x0, hp0⟩
      have hin : c * h + 0 ∈ ch := by
        rw [e3, finer_parent_new ((piece_lt hc).mpr hh), piece_div hc]
      cases ch with
      | nil => cases hin
      | cons x l => exact ⟨x, l, rfl, hpar x (by simp)⟩
  obtain ⟨⟨e1, s1⟩, s2, s3⟩ := h5.stretch sim hok ha hb hc hup (fun M s => M.filterMap (sSample c leaves s)) (by
    intro ds M hs
    obtain ⟨ht, hf⟩ := hsam ds M hs
    have hS := s_samples t hc hn ht
    refine ⟨?_, (hS.gain hc hw h0').1, hS.loss hc hw h0' ?_⟩
    · intro s hs
      exact coarse_dSol r hn (sSample_cover t hs ht) (sSample_coarse t hf)
    · intro k hk b hb y hy
      have := ht.1 b hb
      rw [mem_dCells] at hy
      have hy2 := hy.2.2
      unfold finerS
      exact div_nonneg (h0 k _ _ hk (div_lt_leaves hy.1) (by omega)) (by positivity))
  rw [hst] at s1 s2 s3
  obtain ⟨q1, q2⟩ := g5.quality_eq s1 s2
  obtain ⟨u1, u2⟩ := hup ds L h5.mem
  refine ⟨?_, fun hc1 hpos => ?_⟩
  · rw [g3, h3, ← hU]
    exact congrArg₂ Quality.mk (q1.trans u1) (q2.trans u2)
  · obtain ⟨e2, s4⟩ := s3 (fun e M hM heq => by
      rw [← hst] at hM
      obtain ⟨ht, _⟩ := hsam e M hM
      exact s_old t hc1 hpos h0 ht (((s_samples t hc hn ht).gain hc hw h0').2 heq))
    have hL := g5.unique s4
    refine (o3.map _).trans ?_
    rw [List.map_map, g2, hL, h2, List.map_map, List.map_map, List.map_map]
    exact List.Perm.refl _

end Lp
