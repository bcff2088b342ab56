import Verif.Proofs.SpaceTree
import Verif.Proofs.Resolution
import Verif.Proofs.TogetherH

/-!
# Finer leaves: hierarchical data
-/

namespace Lp
open Spec
open scoped BigOperators
variable {c m leaves : Nat} {parents : List Int} {md md' : HMeta}

theorem piece_lt {s l : Nat} (hs : s < c) : c * l + s < leaves * c ↔ l < leaves := by
  constructor
  · intro h
    have := div_lt_leaves h
    rwa [Nat.mul_add_div (by omega), Nat.div_eq_of_lt hs, Nat.add_zero] at this
  · intro h
    have := Nat.mul_le_mul_left c (show l + 1 ≤ leaves from h)
    rw [Nat.mul_add, Nat.mul_comm c leaves] at this
    omega

theorem piece_div {s l : Nat} (hs : s < c) : (c * l + s) / c = l := by
  rw [Nat.mul_add_div (by omega), Nat.div_eq_of_lt hs, Nat.add_zero]

theorem h_pieces (hc : 0 < c) (h : Nat) : Sampled c (fun s x => c * x + s)
    (leavesUnder (leaves * c) (finerTree c leaves parents) (leaves * c + h)) (fun _ => leavesUnder leaves parents h) := by
  refine o_sampled hc (fun s hs x => ?_)
  rw [finer_leavesUnder, piece_lt hs, piece_div hs]
  exact ⟨fun h => ⟨(mem_leavesUnder.mp h).1, h⟩, fun h => h.2⟩

theorem finer_cover (hc : 0 < c) {L : List Nat} :
    LeafCover (leaves * c) (finerTree c leaves parents) (L.map (fun h => leaves * c + h)) ↔ LeafCover leaves parents L := by
  classical
  have one : ∀ x, x < leaves * c → (ExactlyOne (fun y => Under (finerTree c leaves parents) y x) (L.map (fun h => leaves * c + h)) ↔
      ExactlyOne (fun y => Under parents y (x / c)) L) := by
    intro x hx
    rw [exactlyOne_countP, exactlyOne_countP, List.countP_map]
    have : List.countP ((fun y => decide (Under (finerTree c leaves parents) y x)) ∘ fun h => leaves * c + h) L =
        List.countP (fun y => decide (Under parents y (x / c))) L := by
      apply List.countP_congr
      intro y _
      simp only [Function.comp, decide_eq_true_eq]
      exact finer_under_new hx
    rw [this]
  constructor
  · rintro ⟨h1, h2⟩
    refine ⟨fun x hx => ?_, fun l hl => ?_⟩
    · have := h1 _ (List.mem_map_of_mem hx)
      rw [finerTree_length] at this
      omega
    · have hx := (piece_lt (s := 0) hc).mpr hl
      have := (one _ hx).mp (h2 _ hx)
      rwa [piece_div hc] at this
  · rintro ⟨h1, h2⟩
    refine ⟨fun x hx => ?_, fun x hx => (one x hx).mpr (h2 _ (div_lt_leaves hx))⟩
    obtain ⟨h, hh, rfl⟩ := List.mem_map.mp hx
    have := h1 h hh
    rw [finerTree_length]
    omega

theorem h_shift (t : IsTree leaves parents md.root) (hc : 0 < c) {V : Nat → Nat → ℝ} (h0 : ∀ k i, k < m → i < leaves → 0 ≤ V k i)
    {L : List Nat} (hL : LeafCover leaves parents L) :
    gainOf (fun h => entQ m (finer c V) (leavesUnder (leaves * c) (finerTree c leaves parents) h)) (L.map (fun h => leaves * c + h)) =
      gainOf (fun h => entQ m V (leavesUnder leaves parents h)) L + total m V (Finset.range leaves) * Real.logb 2 c ∧
    lossOf (fun h => entQ m (finer c V) (leavesUnder (leaves * c) (finerTree c leaves parents) h)) (L.map (fun h => leaves * c + h)) =
      lossOf (fun h => entQ m V (leavesUnder leaves parents h)) L := by
  have := leafCover_cuts t hL
  rw [leavesUnder_root t] at this
  exact pieces_sum this (fun h _ => entQ_pieces hc (h_pieces hc h) (fun k _ s hs x _ => finer_piece hc hs)
    (fun k hk x hx => h0 k x hk (mem_leavesUnder.mp hx).1))

theorem refines_mem {root : Nat} (t : IsTree leaves parents root) {L M : List Nat} (hL : LeafCover leaves parents L)
    (h1 : Refines parents L M) (h2 : Refines parents M L) : ∀ x ∈ L, x ∈ M := by
  intro x hx
  obtain ⟨y, hy, hyx⟩ := h1 x hx
  obtain ⟨z, hz, hzy⟩ := h2 y hy
  obtain ⟨l, hl, hxl⟩ := t.exists_leaf (hL.1 x hx)
  obtain ⟨k, _, huniq⟩ := hL.2 l hl
  obtain ⟨kx, hkx⟩ := List.getElem?_of_mem hx
  obtain ⟨kz, hkz⟩ := List.getElem?_of_mem hz
  have a1 := huniq kx ⟨x, hkx, hxl⟩
  have a2 := huniq kz ⟨z, hkz, (hzy.trans hyx).trans hxl⟩
  rw [a1] at hkx
  rw [a2, hkx] at hkz
  obtain rfl := Option.some.inj hkz
  rw [under_antisymm t hyx hzy] at hy
  first | exact hy | (rw [under_antisymm t hzy hyx]; exact hy)

theorem leafCover_nodup {root : Nat} (t : IsTree leaves parents root) {L : List Nat} (hL : LeafCover leaves parents L) : L.Nodup := by
  rw [List.nodup_iff_injective_getElem]
  intro i j e
  obtain ⟨l, hl, hxl⟩ := t.exists_leaf (hL.1 L[i] (List.getElem_mem _))
  obtain ⟨k, _, huniq⟩ := hL.2 l hl
  have a1 := huniq i ⟨L[i], List.getElem?_eq_getElem _, hxl⟩
  have a2 := huniq j ⟨L[j], List.getElem?_eq_getElem _, by rw [← show L[i] = L[j] from e]; exact hxl⟩
  exact Fin.ext (a1.trans a2.symm)

/-- Two partitions refining each other have the same nodes. -/
theorem refines_perm {root : Nat} (t : IsTree leaves parents root) {L M : List Nat} (hL : LeafCover leaves parents L)
    (hM : LeafCover leaves parents M) (h1 : Refines parents L M) (h2 : Refines parents M L) : L.Perm M :=
  (List.perm_ext_iff_of_nodup (leafCover_nodup t hL) (leafCover_nodup t hM)).mpr
    (fun x => ⟨refines_mem t hL h1 h2 x, refines_mem t hM h2 h1 x⟩)

/-- The best partitions of the data and of the finer data. -/
theorem hBest_finer {F : Type} [FloatP F ℝ] (r : RightMeta leaves parents md) (hlt : leaves < parents.length) (hc : 0 < c)
    (r' : RightMeta (leaves * c) (finerTree c leaves parents) md')
    {V : Nat → Nat → ℝ} (h0 : ∀ k i, k < m → i < leaves → 0 ≤ V k i) {q q' : List (Quality ℝ)}
    (hq : VRep q parents.length (fun h => entQ m V (leavesUnder leaves parents h)))
    (hq' : VRep q' (finerTree c leaves parents).length
      (fun h => entQ m (finer c V) (leavesUnder (leaves * c) (finerTree c leaves parents) h)))
    (p : F) (ha : (0 : ℝ) ≤ wGain p) (hb : (0 : ℝ) ≤ wLoss p) :
    ∃ (P P' : HPartition F ℝ) (L L' : List Nat), hBestPartition q md p = .ok P ∧ hBestPartition q' md' p = .ok P' ∧
      P.parts = L.map (hPartOf md (fun h => entQ m V (leavesUnder leaves parents h))) ∧
      P'.parts = L'.map (hPartOf md' (fun h => entQ m (finer c V) (leavesUnder (leaves * c) (finerTree c leaves parents) h))) ∧
      P'.quality = ⟨P.quality.gain + total m V (Finset.range leaves) * Real.logb 2 c, P.quality.loss⟩ ∧
      L'.Perm (L.map (fun h => leaves * c + h)) := by
  have hlt' : leaves * c < (finerTree c leaves parents).length := by rw [finerTree_length]; omega
  have h0' : ∀ k i, k < m → i < leaves * c → 0 ≤ finer c V k i := fun k i hk hi =>
    div_nonneg (h0 k _ hk (div_lt_leaves hi)) (by positivity)
  obtain ⟨P, ds, L, h1, h2, h3, _, h5, h6⟩ := hBest_first r hlt hq p
  obtain ⟨P', ds', L', g1, g2, g3, _, g5, g6⟩ := hBest_first r' hlt' hq' p
  obtain ⟨P2, L2, k1, k2, k3⟩ := hBest_leaves r' hlt' h0' hq' p ha hb
  obtain rfl : P' = P2 := Except.ok.inj (g1.symm.trans k1)
  obtain rfl : L' = L2 := by
    have := congrArg (List.map HPart.h) (g2.symm.trans k2)
    rw [List.map_map, List.map_map] at this
    have e1 := List.map_id L'
    have e2 := List.map_id L2
    exact e1.symm.trans (this.trans e2)
  have t := r.tree
  have t' := r'.tree
  have hL := hSol_leafCover r h5.mem
  have hL' := hSol_leafCover r' g5.mem
  have hold : ∀ x ∈ L', leaves * c ≤ x := by
    intro x hx
    by_contra hlt
    have hlt := not_le.mp hlt
    have hd := div_lt_leaves hlt
    have := k3 (leaves * c + x / c) (by rw [finerTree_length]; omega) (by
      intro k l l' _ hl hl' u u'
      rw [finer_under_new hl] at u
      rw [finer_under_new hl'] at u'
      have hln := div_lt_leaves hl
      have hln' := div_lt_leaves hl'
      have leafEq : ∀ y, y < leaves → Under parents (x / c) y → y = x / c := by
        intro y hy hu
        have hno := (t.leaf (x / c) (by omega)).mp hd
        rw [under_iff] at hu
        rcases hu with h | ⟨z, hz, _⟩
        · exact h
        · exact absurd ⟨z, hz⟩ hno
      unfold finer
      rw [leafEq _ hln u, leafEq _ hln' u']) x hx ((finer_under_new hlt).mpr .self)
    generalize x / c = z at this
    omega
  have hshift : L' = (L'.map (fun x => x - leaves * c)).map (fun h => leaves * c + h) := by
    rw [List.map_map]
    conv_lhs => rw [← List.map_id L']
    apply List.map_congr_left
    intro x hx
    have := hold x hx
    show x = leaves * c + (x - leaves * c)
    omega
  obtain ⟨M, hM⟩ : ∃ M, M = L'.map (fun x => x - leaves * c) := ⟨_, rfl⟩
  rw [← hM] at hshift
  have hMc : LeafCover leaves parents M := by rw [← finer_cover hc, ← hshift]; exact hL'
  have hLc := (finer_cover hc).mpr hL
  obtain ⟨u1, u2⟩ := h_shift t hc h0 hL
  obtain ⟨w1, w2⟩ := h_shift t hc h0 hMc
  rw [← hshift] at w1 w2
  obtain ⟨dM, M', sM, pM⟩ := leafCover_hSol r hMc
  obtain ⟨dL, N', sN, pN⟩ := leafCover_hSol r' hLc
  have b1 := h5.best dM M' sM
  have b2 := g5.best dL N' sN
  have e1 : valueOf (wGain p) (wLoss p) (fun h => entQ m V (leavesUnder leaves parents h)) M' =
      valueOf (wGain p) (wLoss p) (fun h => entQ m V (leavesUnder leaves parents h)) M := by
    unfold valueOf; rw [gainOf_perm pM, lossOf_perm pM]
  have e2 : valueOf (wGain p) (wLoss p) (fun h => entQ m (finer c V) (leavesUnder (leaves * c) (finerTree c leaves parents) h)) N' =
      valueOf (wGain p) (wLoss p) (fun h => entQ m (finer c V) (leavesUnder (leaves * c) (finerTree c leaves parents) h))
        (L.map (fun h => leaves * c + h)) := by
    unfold valueOf; rw [gainOf_perm pN, lossOf_perm pN]
  have f1 : valueOf (wGain p) (wLoss p) (fun h => entQ m (finer c V) (leavesUnder (leaves * c) (finerTree c leaves parents) h))
        (L.map (fun h => leaves * c + h)) = valueOf (wGain p) (wLoss p) (fun h => entQ m V (leavesUnder leaves parents h)) L +
          wGain p * (total m V (Finset.range leaves) * Real.logb 2 c) := by
    unfold valueOf; rw [u1, u2]; ring
  have f2 : valueOf (wGain p) (wLoss p) (fun h => entQ m (finer c V) (leavesUnder (leaves * c) (finerTree c leaves parents) h))
        L' = valueOf (wGain p) (wLoss p) (fun h => entQ m V (leavesUnder leaves parents h)) M +
          wGain p * (total m V (Finset.range leaves) * Real.logb 2 c) := by
    unfold valueOf; rw [w1, w2]; ring
  rw [e1] at b1
  rw [e2] at b2
  have r1 := h6 dM M' sM (by rw [e1]; linarith)
  have r2 := g6 dL N' sN (by rw [e2]; linarith)
  have hperm : M.Perm L := by
    refine refines_perm t hMc hL ?_ ?_
    · intro x hx
      exact r1 x (pM.mem_iff.mpr hx)
    · intro x hx
      obtain ⟨y, hy, hu⟩ := r2 (leaves * c + x) (pN.mem_iff.mpr (List.mem_map_of_mem hx))
      rw [hshift] at hy
      obtain ⟨z, hz, rfl⟩ := List.mem_map.mp hy
      exact ⟨z, hz, finer_under_old.mp hu⟩
  refine ⟨P, P', L, L', h1, g1, h2, g2, ?_, by rw [hshift]; exact hperm.map _⟩
  rw [g3, h3]
  congr 1
  · rw [w1, gainOf_perm hperm]
  · rw [w2, lossOf_perm hperm]

end Lp
