import Verif.Props.C03
import Verif.Props.C21
import Verif.Model.HQualities
import Verif.Model.HPartition
import Verif.Spec.Data

/-!
# C43 — a hierarchy consisting of a single node cannot be analysed

The metadata is right, but computing the qualities (hierarchical and spatiotemporal) and the best hierarchical
partition read the parent of the root as if it were a node: index -1.  Only the spatiotemporal partitioner, given
ready-made qualities, handles this case.
-/

namespace Lp.C43
open Spec
variable {F K : Type}

/-- The single-node tree is the only one in which there is no inner node: the hypothesis `leaves < parents.length` of
the other theorems excludes exactly this case. -/
theorem onlyCase (leaves : Nat) (parents : List Int) (root : Nat) (t : IsTree leaves parents root) :
    ¬ leaves < parents.length ↔ leaves = 1 ∧ parents = [-1] := by
  constructor
  · intro h
    have hle := t.leavesLe
    have hall : ∀ h', h' < parents.length → h' = root := by
      intro h' hh
      by_contra hne
      obtain ⟨p, hp, hpar⟩ := t.other h' hh hne
      exact (t.leaf p hp).mp (by omega) ⟨h', hpar⟩
    have hr := t.rootLt
    have h0 := hall 0 (by omega)
    have h1 : parents.length = 1 := by
      by_contra hne
      have := hall 1 (by omega)
      omega
    refine ⟨by omega, ?_⟩
    have hp := t.rootPar
    rw [← h0] at hp
    match parents, h1 with
    | [a], _ => simp at hp; rw [hp]
  · rintro ⟨rfl, rfl⟩; simp

/-- The metadata of the single-node tree is right. -/
theorem metadata : ∃ md, mkMeta 1 [-1] = .ok md ∧ md.root = 0 ∧ RightMeta 1 [-1] md :=
  C03.balanced 1 [-1] 0
    (.ofCheck (fun _ => 0) (by decide) (by decide) (by decide) (by decide))
    (.ofCheck (fun _ => 0) (by decide) (by decide) (by decide))

theorem parentOf_aux {md : HMeta} (r : RightMeta 1 [-1] md) : md.parentOf 0 = .error .outOfBounds := by
  unfold HMeta.parentOf
  rw [r.parentsEq]
  rfl

theorem path_aux {md : HMeta} (r : RightMeta 1 [-1] md) : vget md.path 0 = .ok 0 :=
  vget_eq_ok.mpr (r.pathLeaves 0 (by decide))

/-- Hierarchical qualities: for any arithmetic, any number of series > 0 and any value, `computeQualities()` accesses
memory out of range. -/
theorem hierarchicalQualities [LDLog K] (v : HValues K) (r : RightMeta 1 [-1] v.md) (hv : 0 < v.vsize) (x : K)
    (hx : v.value 0 0 = .ok x) : (HQualities.ofValues v).computeQualities = .error .outOfBounds := by
  obtain ⟨n, hn⟩ : ∃ n, v.vsize = n + 1 := ⟨v.vsize - 1, by omega⟩
  have h1 : hqSeries v v.md 0 (List.replicate v.md.hsize Quality.zero) = .error .outOfBounds := by
    have hl : (forUp 0 v.md.leaveSize (fun i s => hqLeaf v v.md 0 i s) (HSt.mk (List.replicate v.md.hsize 0)
        (List.replicate v.md.hsize 0) (List.replicate v.md.hsize Quality.zero))) = .error .outOfBounds := by
      rw [r.leaveSize]
      unfold forUp
      simp only [forUpAux, Nat.sub_zero]
      have : hqLeaf v v.md 0 0 (HSt.mk (List.replicate v.md.hsize 0)
        (List.replicate v.md.hsize 0) (List.replicate v.md.hsize Quality.zero)) = .error .outOfBounds := by
        unfold hqLeaf
        simp only [path_aux r, okBind, hx, r.hsize, parentOf_aux r]
        rfl
      rw [this]
    unfold hqSeries
    rw [hl]
    rfl
  unfold HQualities.computeQualities HQualities.ofValues hqCompute forUp
  simp only [hn, Nat.sub_zero, forUpAux, h1]
  rfl

/-- Best hierarchical partition: for any arithmetic, qualities and parameter the access is out of range. -/
theorem hierarchicalPartition [LD K] [FloatP F K] (md : HMeta) (r : RightMeta 1 [-1] md) (q : List (Quality K)) (p : F) :
    hBestPartition q md p = .error .outOfBounds := by
  have hl : ∀ s0 : HBest K, (forUp 0 md.leaveSize (fun i s => hbLeaf q p md i s) s0) = .error .outOfBounds := by
    intro s0
    rw [r.leaveSize]
    unfold forUp
    simp only [forUpAux, Nat.sub_zero]
    have : hbLeaf q p md 0 s0 = .error .outOfBounds := by
      unfold hbLeaf hbSet hbPush
      simp only [path_aux r, okBind, parentOf_aux r]
      unfold vget vset
      cases q[0]? with
      | none => rfl
      | some x =>
        simp only [okBind]
        split <;> rfl
    rw [this]
  unfold hBestPartition hbLoop
  dsimp only
  rw [hl]
  rfl

/-- Spatiotemporal qualities: as the hierarchical ones (at least one series, at least one slice). -/
theorem spatiotemporalQualities [LDLog K] (v : DValues K) (r : RightMeta 1 [-1] v.md) (hv : 0 < v.vsize)
    (n : Nat) (hn : v.osize = n + 1) (hn' : n + 1 ≤ 65535) (row : List K) (x : K) (hrow : v.series 0 0 = .ok row)
    (hx : row[n]? = some x) :
    (DQualities.ofValues v).computeQualities = .error .outOfBounds := by
  obtain ⟨m, hm⟩ : ∃ m, v.vsize = m + 1 := ⟨v.vsize - 1, by omega⟩
  have hrepl : MRep (List.replicate v.md.hsize (UTM.mk' v.osize (0 : K))) 1 (n + 1) (fun _ _ _ => 0) := by
    rw [hn, r.hsize]
    exact MRep.replicate hn' _
  have hrow1 : dqLeafRow v v.md 0 0 n (DSt.mk (List.replicate v.md.hsize (UTM.mk' v.osize 0))
        (List.replicate v.md.hsize (UTM.mk' v.osize 0)) (List.replicate v.md.hsize (UTM.mk' v.osize Quality.zero))) =
        .error .outOfBounds := by
    obtain ⟨s1, e1, _⟩ := hrepl.set x (show (0 : Nat) < 1 by decide) (le_refl n) (Nat.lt_succ_self n)
    obtain ⟨s2, e2, _⟩ := hrepl.set (entropyReduction x 0) (show (0 : Nat) < 1 by decide) (le_refl n) (Nat.lt_succ_self n)
    unfold dqLeafRow
    rw [hrow]
    simp only [okBind, vget_eq_ok.mpr hx, e1, e2]
    unfold dqPush
    rw [parentOf_aux r]
    rfl
  have hleaf : dqLeaf v v.md 0 0 (DSt.mk (List.replicate v.md.hsize (UTM.mk' v.osize 0))
        (List.replicate v.md.hsize (UTM.mk' v.osize 0)) (List.replicate v.md.hsize (UTM.mk' v.osize Quality.zero))) =
        .error .outOfBounds := by
    unfold dqLeaf
    rw [path_aux r]
    simp only [okBind]
    rw [show forDown v.osize = forDown (n + 1) by rw [hn]]
    rw [forDown]
    rw [hrow1]
  have h1 : dqSeries v v.md 0 (List.replicate v.md.hsize (UTM.mk' v.osize Quality.zero)) = .error .outOfBounds := by
    unfold dqSeries
    dsimp only
    rw [r.leaveSize]
    unfold forUp
    simp only [Nat.sub_zero, forUpAux, hleaf]
    rfl
  unfold DQualities.computeQualities DQualities.ofValues dqCompute forUp
  simp only [hm, Nat.sub_zero, forUpAux, h1]
  rfl

/-- The spatiotemporal partitioner on ready-made qualities of a single node returns rectangles of that node that tile
the slices. -/
theorem spatiotemporalPartition [LD K] [FloatP F K] (md : HMeta) (r : RightMeta 1 [-1] md) (n : Nat) (h0 : 0 < n)
    (hn : n ≤ 65535) (q : List (UTM (Quality K))) (Q : Nat → Nat → Nat → Quality K) (hq : MRep q 1 n Q) (p : F) :
    ∃ (P : DPartition F K) (L : List Rect), dBestPartition q md p = .ok P ∧ CellCover 1 [-1] n L ∧
      P.parts = L.map (fun x => ⟨0, 1, x.first, x.last, Q 0 x.first x.last⟩) ∧ ∀ x ∈ L, x.node = 0 := by
  obtain ⟨P, L, h1, h2, h3, _⟩ := C20.cover 1 [-1] md r n h0 hn q Q hq p
  have hz : ∀ x ∈ L, x.node = 0 := fun x hx => by
    have := (h2.1 x hx).1
    simp at this
    exact this
  refine ⟨P, L, h1, h2, ?_, hz⟩
  rw [h3]
  apply List.map_congr_left
  intro x hx
  rw [hz x hx, leavesUnder_leaf r.tree (by decide)]
  rfl

/-- Concretely: one node, one series with the value 7. -/
example : ∃ md, mkMeta 1 [-1] = .ok md ∧
    (HQualities.ofValues (HValues.mk 1 md (fun _ _ => .ok (7 : ℝ)))).computeQualities = .error .outOfBounds := by
  obtain ⟨md, h1, _, h3⟩ := metadata
  exact ⟨md, h1, hierarchicalQualities (HValues.mk 1 md (fun _ _ => .ok 7)) h3 Nat.one_pos 7 rfl⟩

/-! ## The hypotheses are met by concrete inputs -/

theorem exTree_aux : IsTree 1 [-1] 0 := .ofCheck (fun _ => 0) (by decide) (by decide) (by decide) (by decide)

theorem exMeta_aux : ∃ md, mkMeta 1 [-1] = .ok md ∧ RightMeta 1 [-1] md := by
  obtain ⟨md, h, _, r⟩ := C03.right 1 [-1] 0 exTree_aux (balanced_nearestFirst exTree_aux (.ofCheck (fun _ => 0) (by decide) (by decide) (by decide)))
  exact ⟨md, h, r⟩

example : ∃ md, mkMeta 1 [-1] = .ok md ∧ hBestPartition [(⟨0, 0⟩ : Quality ℚ)] md (1 / 2 : ℚ) = .error .outOfBounds := by
  obtain ⟨md, h, r⟩ := exMeta_aux
  exact ⟨md, h, hierarchicalPartition md r _ _⟩

end Lp.C43
