import Verif.Proofs.Separately
import Verif.Proofs.Samples
import Verif.Props.C19
import Verif.Props.C92
import Verif.Spec.Subsystems

/-!
# C100 — the series analysed together and one by one

Data with `m` series `V`, and each series `V k` as data of its own.  At every parameter the best partition of the whole is worth
at most the sum of what the best partitions of the single series are worth (`worth`, `Spec/Subsystems.lean`), and exactly the
sum if and only if one partition is as good for every series as its best.  When all single series have the same best partition, it is also the
one reported for all of them together, whatever the tie-breaks.  A node of the hierarchy that is a part of the best partition of
every single series is not cut in the hierarchical partition of the whole.  Data of any sign, exact qualities, any rounding of `1-p`.
-/

namespace Lp.C100
open Spec
open scoped BigOperators
variable {F : Type} [FloatP F ℝ]

theorem total_aux {A ι : Type} {m : Nat} {V : Nat → ι → ℝ} {cells : A → Finset ι} {a b : ℝ} {pr : List A → Prop} {L : Nat → List A}
    {M : List A} (hM : pr M) (hbest : ∀ N, pr N → valueOf a b (fun x => anyQ m V (cells x)) N ≤ valueOf a b (fun x => anyQ m V (cells x)) M)
    (h : ∀ k < m, ∀ N, pr N → valueOf a b (oneQ V cells k) N ≤ valueOf a b (oneQ V cells k) (L k)) :
    valueOf a b (fun x => anyQ m V (cells x)) M ≤ ∑ k ∈ Finset.range m, valueOf a b (oneQ V cells k) (L k) ∧
    (valueOf a b (fun x => anyQ m V (cells x)) M = ∑ k ∈ Finset.range m, valueOf a b (oneQ V cells k) (L k) ↔
      ∃ N, pr N ∧ ∀ k < m, valueOf a b (oneQ V cells k) N = valueOf a b (oneQ V cells k) (L k)) := by
  have le : ∀ k ∈ Finset.range m, valueOf a b (oneQ V cells k) M ≤ valueOf a b (oneQ V cells k) (L k) :=
    fun k hk => h k (Finset.mem_range.mp hk) M hM
  have hle : valueOf a b (fun x => anyQ m V (cells x)) M ≤ ∑ k ∈ Finset.range m, valueOf a b (oneQ V cells k) (L k) := by
    rw [valueOf_series]; exact Finset.sum_le_sum le
  refine ⟨hle, fun e => ⟨M, hM, fun k hk => ?_⟩, ?_⟩
  · rw [valueOf_series] at e
    exact (Finset.sum_eq_sum_iff_of_le le).mp e k (Finset.mem_range.mpr hk)
  · rintro ⟨N, hN, e⟩
    refine le_antisymm hle ?_
    rw [← Finset.sum_congr rfl (fun k hk => e k (Finset.mem_range.mp hk)), ← valueOf_series]
    exact hbest N hN

/-- Ordered data. -/
theorem ordered (m n : Nat) (hn : n ≤ 65535) (V : Nat → Nat → ℝ) (v : OValues ℝ) (vs : Nat → OValues ℝ) (hv : OData v m n V)
    (hvs : ∀ k < m, OData (vs k) 1 n (fun _ => V k)) :
    ∃ (q : UTM (Quality ℝ)) (qs : Nat → UTM (Quality ℝ)),
      (OQualities.ofValues v).computeQualities = .ok ⟨some v, some q⟩ ∧
      (∀ k < m, (OQualities.ofValues (vs k)).computeQualities = .ok ⟨some (vs k), some (qs k)⟩) ∧
      ∀ p : F, ∃ (P : OPartition F ℝ) (Ps : Nat → OPartition F ℝ),
        oBestPartition q p = .ok P ∧ (∀ k < m, oBestPartition (qs k) p = .ok (Ps k)) ∧
        worth p P.quality ≤ ∑ k ∈ Finset.range m, worth p (Ps k).quality ∧
        (worth p P.quality = ∑ k ∈ Finset.range m, worth p (Ps k).quality ↔
          ∃ N, Tiles 0 n N ∧ ∀ k < m, valueOf (FloatP.toK p) (FloatP.toK (FloatP.oneSub p))
            (fun I : Nat × Nat => anyQ 1 (fun _ => V k) (Finset.Icc I.1 I.2)) N = worth p (Ps k).quality) ∧
        (0 < m → ∀ L : List (Int × Int), (∀ k < m, (Ps k).parts.map (fun x => (x.start, x.end)) = L) →
          P.parts.map (fun x => (x.start, x.end)) = L) := by
  obtain ⟨q, e, hq⟩ := oq_objectAny hv hn
  have hqs : ∀ k, ∃ qk : UTM (Quality ℝ), k < m → (OQualities.ofValues (vs k)).computeQualities = .ok ⟨some (vs k), some qk⟩ ∧
      qk.Rep n (fun i j => anyQ 1 (fun _ => V k) (oCells (i, j))) := by
    intro k
    by_cases hk : k < m
    · obtain ⟨qk, h1, h2⟩ := oq_objectAny (hvs k hk) hn
      exact ⟨qk, fun _ => ⟨h1, h2⟩⟩
    · exact ⟨q, fun h => absurd h hk⟩
  choose qs hqs using hqs
  refine ⟨q, qs, e, fun k hk => (hqs k hk).1, fun p => ?_⟩
  obtain ⟨P, M, a1, a2, a3, a4⟩ := oBest_top (F := F) hq p
  have hPs : ∀ k, ∃ (Pk : OPartition F ℝ) (Lk : List (Nat × Nat)), k < m → oBestPartition (qs k) p = .ok Pk ∧
      Pk.parts = Lk.map (oPartOf (fun i j => anyQ 1 (fun _ => V k) (oCells (i, j)))) ∧
      worth p Pk.quality = valueOf (wGain p) (wLoss p) (oneQ V oCells k) Lk ∧ OTop (wGain p) (wLoss p) n (oneQ V oCells k) Lk := by
    intro k
    by_cases hk : k < m
    · obtain ⟨Pk, Lk, b1, b2, b3, b4⟩ := oBest_top (F := F) (hqs k hk).2 p
      exact ⟨Pk, Lk, fun _ => ⟨b1, b2, by rw [b3]; rfl, b4⟩⟩
    · exact ⟨P, [], fun h => absurd h hk⟩
  choose Ps Ls hPs using hPs
  have hw : worth p P.quality = valueOf (wGain p) (wLoss p) (fun I => anyQ m V (oCells I)) M := by rw [a3]; rfl
  have tot := total_aux (pr := Tiles 0 n) (L := Ls) a4.tiles (fun N hN => (a4.best N hN).value) (fun k hk N hN => ((hPs k hk).2.2.2.best N hN).value)
  have hsum : ∑ k ∈ Finset.range m, worth p (Ps k).quality = ∑ k ∈ Finset.range m, valueOf (wGain p) (wLoss p) (oneQ V oCells k) (Ls k) :=
    Finset.sum_congr rfl (fun k hk => (hPs k (Finset.mem_range.mp hk)).2.2.1)
  have cast : ∀ (f : Nat → Nat → Quality ℝ) (N : List (Nat × Nat)),
      (N.map (oPartOf f)).map (fun x => (x.start, x.end)) = N.map (fun I => ((I.1 : Int), (I.2 : Int))) := by
    intro f N; rw [List.map_map]; rfl
  have inj : Function.Injective (fun I : Nat × Nat => ((I.1 : Int), (I.2 : Int))) := by
    intro I J h
    simp only [Prod.mk.injEq, Nat.cast_inj] at h
    exact Prod.ext h.1 h.2
  refine ⟨P, Ps, a1, fun k hk => (hPs k hk).1, ?_, ?_, ?_⟩
  · rw [hw, hsum]; exact tot.1
  · rw [hw, hsum]
    refine tot.2.trans ⟨?_, ?_⟩
    · rintro ⟨N, hN, h⟩
      exact ⟨N, hN, fun k hk => (h k hk).trans (hPs k hk).2.2.1.symm⟩
    · rintro ⟨N, hN, h⟩
      exact ⟨N, hN, fun k hk => (h k hk).trans (hPs k hk).2.2.1⟩
  · intro hm L hL
    have same : ∀ k < m, Ls k = Ls 0 := by
      intro k hk
      have h1 := hL k hk
      have h2 := hL 0 hm
      rw [(hPs k hk).2.1, cast] at h1
      rw [(hPs 0 hm).2.1, cast] at h2
      exact List.map_injective_iff.mpr inj (h1.trans h2.symm)
    have : M = Ls 0 := OTop.agree hm (V := V) (fun k hk => by rw [← same k hk]; exact (hPs k hk).2.2.2) a4
    rw [← hL 0 hm, (hPs 0 hm).2.1, a2, cast, cast, this]

/-- Hierarchical data. -/
theorem hierarchical (leaves : Nat) (parents : List Int) (hlt : leaves < parents.length) (m : Nat) (V : Nat → Nat → ℝ)
    (v : HValues ℝ) (vs : Nat → HValues ℝ) (hmd : RightMeta leaves parents v.md) (hmds : ∀ k < m, (vs k).md = v.md)
    (hv : HData v m leaves V) (hvs : ∀ k < m, HData (vs k) 1 leaves (fun _ => V k)) :
    ∃ (q : List (Quality ℝ)) (qs : Nat → List (Quality ℝ)),
      (HQualities.ofValues v).computeQualities = .ok ⟨some v, some q, v.md⟩ ∧
      (∀ k < m, (HQualities.ofValues (vs k)).computeQualities = .ok ⟨some (vs k), some (qs k), v.md⟩) ∧
      ∀ p : F, ∃ (P : HPartition F ℝ) (Ps : Nat → HPartition F ℝ),
        hBestPartition q v.md p = .ok P ∧ (∀ k < m, hBestPartition (qs k) v.md p = .ok (Ps k)) ∧
        worth p P.quality ≤ ∑ k ∈ Finset.range m, worth p (Ps k).quality ∧
        (worth p P.quality = ∑ k ∈ Finset.range m, worth p (Ps k).quality ↔
          ∃ N, LeafCover leaves parents N ∧ ∀ k < m, valueOf (FloatP.toK p) (FloatP.toK (FloatP.oneSub p))
            (fun h : Nat => anyQ 1 (fun _ => V k) (leavesUnder leaves parents h)) N = worth p (Ps k).quality) ∧
        (0 < m → ∀ L : List Nat, (∀ k < m, (Ps k).parts.map (fun x => x.h) = L) → P.parts.map (fun x => x.h) = L) ∧
        (0 < m → ∀ x : Nat, (∀ k < m, ∃ y ∈ (Ps k).parts, y.h = x) → ∃ y ∈ P.parts, Under parents y.h x) := by
  obtain ⟨q, e, hq⟩ := hq_objectAny hmd hlt hv
  have hqs : ∀ k, ∃ qk : List (Quality ℝ), k < m → (HQualities.ofValues (vs k)).computeQualities = .ok ⟨some (vs k), some qk, v.md⟩ ∧
      VRep qk parents.length (oneQ V (leavesUnder leaves parents) k) := by
    intro k
    by_cases hk : k < m
    · obtain ⟨qk, h1, h2⟩ := hq_objectAny (by rw [hmds k hk]; exact hmd) hlt (hvs k hk)
      rw [hmds k hk] at h1
      exact ⟨qk, fun _ => ⟨h1, h2⟩⟩
    · exact ⟨q, fun h => absurd h hk⟩
  choose qs hqs using hqs
  refine ⟨q, qs, e, fun k hk => (hqs k hk).1, fun p => ?_⟩
  obtain ⟨P, ds, M, a1, a2, a3, _, a5, _⟩ := hBest_first (F := F) hmd hlt hq p
  obtain ⟨P', M', c1, c2, c3, _, c5⟩ := C19.optimal (F := F) leaves parents v.md hmd hlt q _ hq p
  obtain rfl : P = P' := by rw [a1] at c1; exact Except.ok.inj c1
  have eM : M' = M := by
    have := congrArg (List.map Prod.fst) c3
    rw [a2] at this
    simpa [Function.comp_def, hPartOf] using this.symm
  subst eM
  have hPs : ∀ k, ∃ (Pk : HPartition F ℝ) (dk Lk : List Nat), k < m → hBestPartition (qs k) v.md p = .ok Pk ∧
      Pk.parts = Lk.map (hPartOf v.md (oneQ V (leavesUnder leaves parents) k)) ∧
      worth p Pk.quality = valueOf (wGain p) (wLoss p) (oneQ V (leavesUnder leaves parents) k) Lk ∧
      ValFirst (Sol (hDecs leaves v.md.children) [v.md.root]) (wGain p) (wLoss p) (oneQ V (leavesUnder leaves parents) k) dk Lk := by
    intro k
    by_cases hk : k < m
    · obtain ⟨Pk, dk, Lk, b1, b2, b3, _, b5, _⟩ := hBest_first (F := F) hmd hlt (hqs k hk).2 p
      exact ⟨Pk, dk, Lk, fun _ => ⟨b1, b2, by rw [b3]; rfl, b5⟩⟩
    · exact ⟨P, [], [], fun h => absurd h hk⟩
  choose Ps dk Ls hPs using hPs
  have hbest : ∀ k < m, ∀ N, LeafCover leaves parents N → valueOf (wGain p) (wLoss p) (oneQ V (leavesUnder leaves parents) k) N ≤
      valueOf (wGain p) (wLoss p) (oneQ V (leavesUnder leaves parents) k) (Ls k) := by
    intro k hk N hN
    obtain ⟨ds', N', hs, hp⟩ := leafCover_hSol hmd hN
    rw [← valueOf_permK hp]
    exact (hPs k hk).2.2.2.best ds' N' hs
  have hw : worth p P.quality = valueOf (wGain p) (wLoss p) (fun h => anyQ m V (leavesUnder leaves parents h)) M' := by rw [a3]; rfl
  have tot := total_aux (pr := LeafCover leaves parents) (L := Ls) c2 (fun N hN => (c5 N hN).1) hbest
  have hsum : ∑ k ∈ Finset.range m, worth p (Ps k).quality =
      ∑ k ∈ Finset.range m, valueOf (wGain p) (wLoss p) (oneQ V (leavesUnder leaves parents) k) (Ls k) :=
    Finset.sum_congr rfl (fun k hk => (hPs k (Finset.mem_range.mp hk)).2.2.1)
  have nodes : ∀ (f : Nat → Quality ℝ) (N : List Nat), (N.map (hPartOf v.md f)).map (fun x => x.h) = N := by
    intro f N
    simp [Function.comp_def, hPartOf]
  refine ⟨P, Ps, a1, fun k hk => (hPs k hk).1, ?_, ?_, ?_, ?_⟩
  · rw [hw, hsum]; exact tot.1
  · rw [hw, hsum]
    refine tot.2.trans ⟨?_, ?_⟩
    · rintro ⟨N, hN, h⟩
      exact ⟨N, hN, fun k hk => (h k hk).trans (hPs k hk).2.2.1.symm⟩
    · rintro ⟨N, hN, h⟩
      exact ⟨N, hN, fun k hk => (h k hk).trans (hPs k hk).2.2.1⟩
  · intro hm L hL
    have same : ∀ k < m, Ls k = L := by
      intro k hk
      have h1 := hL k hk
      rwa [(hPs k hk).2.1, nodes] at h1
    rw [a2, nodes]
    exact ValFirst.agree hm (cells := leavesUnder leaves parents) (V := V) (ds := dk)
      (fun k hk => by rw [← same k hk]; exact (hPs k hk).2.2.2) a5
  · intro hm x hx
    obtain ⟨y, hy, hyx⟩ := series_part hmd.tree (V := V) (L := Ls) (M := M') (x := x) (fun k hk => by
      obtain ⟨z, hz, rfl⟩ := hx k hk
      rw [(hPs k hk).2.1] at hz
      obtain ⟨w, hw, rfl⟩ := List.mem_map.mp hz
      exact hw) hm (fun k hk => hSol_leafCover hmd (hPs k hk).2.2.2.mem) c2 hbest c5
    exact ⟨_, by rw [a2]; exact List.mem_map_of_mem hy, hyx⟩

/-- Spatiotemporal data. -/
theorem spatiotemporal (leaves : Nat) (parents : List Int) (hlt : leaves < parents.length) (m n : Nat) (hn0 : 0 < n) (hn : n ≤ 65535)
    (hb : leaves * n < 2147483648) (V : Nat → Nat × Nat → ℝ)
    (v : DValues ℝ) (vs : Nat → DValues ℝ) (hmd : RightMeta leaves parents v.md) (hmds : ∀ k < m, (vs k).md = v.md)
    (hv : DData v m leaves n V) (hvs : ∀ k < m, DData (vs k) 1 leaves n (fun _ => V k)) :
    ∃ (q : List (UTM (Quality ℝ))) (qs : Nat → List (UTM (Quality ℝ))),
      (DQualities.ofValues v).computeQualities = .ok ⟨some v, some q, v.md⟩ ∧
      (∀ k < m, (DQualities.ofValues (vs k)).computeQualities = .ok ⟨some (vs k), some (qs k), v.md⟩) ∧
      ∀ p : F, ∃ (P : DPartition F ℝ) (Ps : Nat → DPartition F ℝ),
        dBestPartition q v.md p = .ok P ∧ (∀ k < m, dBestPartition (qs k) v.md p = .ok (Ps k)) ∧
        worth p P.quality ≤ ∑ k ∈ Finset.range m, worth p (Ps k).quality ∧
        (worth p P.quality = ∑ k ∈ Finset.range m, worth p (Ps k).quality ↔
          ∃ N, (CellCover leaves parents n N ∧ CoarseFirst parents N) ∧ ∀ k < m,
            valueOf (FloatP.toK p) (FloatP.toK (FloatP.oneSub p)) (fun r : Rect => anyQ 1 (fun _ => V k) (dCells leaves parents r)) N =
              worth p (Ps k).quality) ∧
        (0 < m → ∀ L : List (Nat × Nat × Nat), (∀ k < m, (Ps k).parts.map (fun x => (x.h, x.start, x.end)) = L) →
          P.parts.map (fun x => (x.h, x.start, x.end)) = L) := by
  obtain ⟨q, e, hq⟩ := dq_objectAny hmd hlt hn hb hv
  have hqs : ∀ k, ∃ qk : List (UTM (Quality ℝ)),
      k < m → (DQualities.ofValues (vs k)).computeQualities = .ok ⟨some (vs k), some qk, v.md⟩ ∧
      MRep qk parents.length n (fun h i j => anyQ 1 (fun _ => V k) (dCells leaves parents ⟨h, i, j⟩)) := by
    intro k
    by_cases hk : k < m
    · obtain ⟨qk, h1, h2⟩ := dq_objectAny (by rw [hmds k hk]; exact hmd) hlt hn hb (hvs k hk)
      rw [hmds k hk] at h1
      exact ⟨qk, fun _ => ⟨h1, h2⟩⟩
    · exact ⟨q, fun h => absurd h hk⟩
  choose qs hqs using hqs
  refine ⟨q, qs, e, fun k hk => (hqs k hk).1, fun p => ?_⟩
  obtain ⟨P, ds, M, a1, a2, a3, _, a5⟩ := dBest_first (F := F) hmd hq hn0 hn p
  have hPs : ∀ k, ∃ (Pk : DPartition F ℝ) (dk : List Nat) (Lk : List Rect), k < m → dBestPartition (qs k) v.md p = .ok Pk ∧
      Pk.parts = Lk.map (dPartOf v.md (fun h i j => anyQ 1 (fun _ => V k) (dCells leaves parents ⟨h, i, j⟩))) ∧
      worth p Pk.quality = valueOf (wGain p) (wLoss p) (oneQ V (dCells leaves parents) k) Lk ∧
      LexFirst (Sol (dDecs leaves v.md.children n) [(v.md.root, 0)]) (wGain p) (wLoss p) (oneQ V (dCells leaves parents) k) dk Lk := by
    intro k
    by_cases hk : k < m
    · obtain ⟨Pk, dk, Lk, b1, b2, b3, _, b5⟩ := dBest_first (F := F) hmd (hqs k hk).2 hn0 hn p
      exact ⟨Pk, dk, Lk, fun _ => ⟨b1, b2, by rw [b3]; rfl, b5⟩⟩
    · exact ⟨P, [], [], fun h => absurd h hk⟩
  choose Ps dk Ls hPs using hPs
  have toCover : ∀ {Q : Rect → Quality ℝ} {d : List Nat} {K : List Rect},
      LexFirst (Sol (dDecs leaves v.md.children n) [(v.md.root, 0)]) (wGain p) (wLoss p) Q d K →
      ∀ N, CellCover leaves parents n N ∧ CoarseFirst parents N → valueOf (wGain p) (wLoss p) Q N ≤ valueOf (wGain p) (wLoss p) Q K := by
    intro Q d K h N hN
    obtain ⟨ds', N', hs, hp⟩ := coarse_dSol hmd hn0 hN.1 hN.2
    rw [← valueOf_permK hp]
    exact (h.best ds' N' hs).value
  have hw : worth p P.quality = valueOf (wGain p) (wLoss p) (fun r => anyQ m V (dCells leaves parents r)) M := by rw [a3]; rfl
  have tot := total_aux (m := m) (V := V) (cells := dCells leaves parents) (a := wGain p) (b := wLoss p)
    (pr := fun N => CellCover leaves parents n N ∧ CoarseFirst parents N) (L := Ls) (M := M)
    ⟨dSol_cellCover hmd hn0 a5.mem, dSol_coarse hmd hn0 a5.mem⟩ (toCover a5) (fun k hk => toCover (hPs k hk).2.2.2)
  have hsum : ∑ k ∈ Finset.range m, worth p (Ps k).quality =
      ∑ k ∈ Finset.range m, valueOf (wGain p) (wLoss p) (oneQ V (dCells leaves parents) k) (Ls k) :=
    Finset.sum_congr rfl (fun k hk => (hPs k (Finset.mem_range.mp hk)).2.2.1)
  have cast : ∀ (f : Nat → Nat → Nat → Quality ℝ) (N : List Rect),
      (N.map (dPartOf v.md f)).map (fun x => (x.h, x.start, x.end)) = N.map (fun r => (r.node, r.first, r.last)) := by
    intro f N; rw [List.map_map]; rfl
  have inj : Function.Injective (fun r : Rect => (r.node, r.first, r.last)) := by
    rintro ⟨a, b, c⟩ ⟨a', b', c'⟩ h
    simp only [Prod.mk.injEq] at h
    obtain ⟨rfl, rfl, rfl⟩ := h
    rfl
  refine ⟨P, Ps, a1, fun k hk => (hPs k hk).1, ?_, ?_, ?_⟩
  · rw [hw, hsum]; exact tot.1
  · rw [hw, hsum]
    refine tot.2.trans ⟨?_, ?_⟩
    · rintro ⟨N, hN, h⟩
      exact ⟨N, hN, fun k hk => (h k hk).trans (hPs k hk).2.2.1.symm⟩
    · rintro ⟨N, hN, h⟩
      exact ⟨N, hN, fun k hk => (h k hk).trans (hPs k hk).2.2.1⟩
  · intro hm L hL
    have same : ∀ k < m, Ls k = Ls 0 := by
      intro k hk
      have h1 := hL k hk
      have h2 := hL 0 hm
      rw [(hPs k hk).2.1, cast] at h1
      rw [(hPs 0 hm).2.1, cast] at h2
      exact List.map_injective_iff.mpr inj (h1.trans h2.symm)
    have : M = Ls 0 := LexFirst.agree hm (cells := dCells leaves parents) (V := V) (ds := dk)
      (fun k hk => by rw [← same k hk]; exact (hPs k hk).2.2.2) a5
    rw [← hL 0 hm, (hPs 0 hm).2.1, a2, cast, cast, this]

/-! ## Concrete inputs -/

/-- The series `1 1` and `1 0`. -/
def exV (k i : Nat) : ℝ := if k = 1 ∧ i = 1 then 0 else 1

/-- The series `1 1` and `1 0` at parameter `1/2`: the first alone becomes one part of value 1, the second alone stays in two
parts of value 0; together they become one part, of value `1/2` only. -/
theorem conflict : ∃ (q q0 q1 : UTM (Quality ℝ)) (P P0 P1 : OPartition ℝ ℝ),
    (OQualities.ofValues (OValuesN2.ofVec ([[1, 1], [1, 0]] : List (List ℝ))).toOValues).computeQualities =
      .ok ⟨some (OValuesN2.ofVec [[1, 1], [1, 0]]).toOValues, some q⟩ ∧
    (OQualities.ofValues (OValuesN1.ofVec ([1, 1] : List ℝ)).toOValues).computeQualities =
      .ok ⟨some (OValuesN1.ofVec [1, 1]).toOValues, some q0⟩ ∧
    (OQualities.ofValues (OValuesN1.ofVec ([1, 0] : List ℝ)).toOValues).computeQualities =
      .ok ⟨some (OValuesN1.ofVec [1, 0]).toOValues, some q1⟩ ∧
    oBestPartition q (1 / 2 : ℝ) = .ok P ∧ oBestPartition q0 (1 / 2 : ℝ) = .ok P0 ∧ oBestPartition q1 (1 / 2 : ℝ) = .ok P1 ∧
    P.parts.map (fun x => (x.start, x.end)) = [(0, 1)] ∧ P0.parts.map (fun x => (x.start, x.end)) = [(0, 1)] ∧
    P1.parts.map (fun x => (x.start, x.end)) = [(0, 0), (1, 1)] ∧
    worth (1 / 2 : ℝ) P.quality = 1 / 2 ∧ worth (1 / 2 : ℝ) P0.quality = 1 ∧ worth (1 / 2 : ℝ) P1.quality = 0 := by
  have nonneg : ∀ k i, 0 ≤ exV k i := fun k i => by unfold exV; split <;> norm_num
  have d := (OValuesN2.ofVec_holds (V := 2) (O := 2) (by norm_num) (fun x => exV x.1 x.2)).data
  have t : table2 2 2 (fun x => exV x.1 x.2) = [[1, 1], [1, 0]] := by
    simp [table2, table1, List.range_succ, exV]
  have d0 := (OValuesN1.ofVec_holds (O := 2) (exV 0)).data
  have t0 : table1 2 (exV 0) = [1, 1] := by simp [table1, List.range_succ, exV]
  have d1 := (OValuesN1.ofVec_holds (O := 2) (exV 1)).data
  have t1 : table1 2 (exV 1) = [1, 0] := by simp [table1, List.range_succ, exV]
  rw [t] at d
  rw [t0] at d0
  rw [t1] at d1
  obtain ⟨q, e, h⟩ := oq_object d (by norm_num) (fun k i _ _ => nonneg k i)
  obtain ⟨q0, e0, h0⟩ := oq_object d0 (by norm_num) (fun k i _ _ => nonneg 0 i)
  obtain ⟨q1, e1, h1⟩ := oq_object d1 (by norm_num) (fun k i _ _ => nonneg 1 i)
  have c00 : oCells (0, 0) = {0} := by decide
  have c11 : oCells (1, 1) = {1} := by decide
  have c01 : oCells (0, 1) = {0, 1} := by decide
  have g : entQ 2 exV (oCells (0, 1)) = ⟨2, 1⟩ := by
    rw [c01]
    simp [entQ, gainSeries, lossSeries, lossOver, gainOver, xlog2, exV, Finset.sum_range_succ]
    norm_num
  have g0 : entQ 1 (fun _ => exV 0) (oCells (0, 1)) = ⟨2, 0⟩ := by
    rw [c01]
    simp [entQ, gainSeries, lossSeries, lossOver, gainOver, xlog2, exV]
  have g1 : entQ 1 (fun _ => exV 1) (oCells (0, 1)) = ⟨0, 1⟩ := by
    rw [c01]
    simp [entQ, gainSeries, lossSeries, lossOver, gainOver, xlog2, exV]
  have z : ∀ (m : Nat) (V : Nat → Nat → ℝ) (x : Nat), entQ m V {x} = ⟨0, 0⟩ := fun m V x => by
    unfold entQ
    rw [gainSeries_single, lossSeries_single]
  have fine : Tiles 0 2 [(0, 0), (1, 1)] := .cons (by norm_num) (by norm_num) (.cons (by norm_num) (by norm_num) (.nil 2))
  have whole : Tiles 0 2 [(0, 1)] := .cons (by norm_num) (by norm_num) (.nil 2)
  obtain ⟨P, L, a1, a2, a3, a4, a5⟩ := C16.optimal q 2 _ h (1 / 2 : ℝ)
  obtain ⟨P0, L0, b1, b2, b3, b4, b5⟩ := C16.optimal q0 2 _ h0 (1 / 2 : ℝ)
  obtain ⟨P1, L1, x1, x2, x3, x4, x5⟩ := C16.optimal q1 2 _ h1 (1 / 2 : ℝ)
  have eL : L = [(0, 1)] := by
    rcases C92.two_aux a2 with rfl | rfl
    · rfl
    · exfalso
      have k := a5 _ whole
      simp only [valueOf, gainOf_cons, gainOf_nil, lossOf_cons, lossOf_nil, c00, c11, z] at k
      erw [g] at k
      norm_num [FloatP.toK, FloatP.oneSub] at k
  have eL0 : L0 = [(0, 1)] := by
    rcases C92.two_aux b2 with rfl | rfl
    · rfl
    · exfalso
      have k := b5 _ whole
      simp only [valueOf, gainOf_cons, gainOf_nil, lossOf_cons, lossOf_nil, c00, c11, z] at k
      erw [g0] at k
      norm_num [FloatP.toK, FloatP.oneSub] at k
  have eL1 : L1 = [(0, 0), (1, 1)] := by
    rcases C92.two_aux x2 with rfl | rfl
    · exfalso
      have k := x5 _ fine
      simp only [valueOf, gainOf_cons, gainOf_nil, lossOf_cons, lossOf_nil, c00, c11, z] at k
      erw [g1] at k
      norm_num [FloatP.toK, FloatP.oneSub] at k
    · rfl
  subst eL eL0 eL1
  refine ⟨q, q0, q1, P, P0, P1, e, e0, e1, a1, b1, x1, by rw [a3]; rfl, by rw [b3]; rfl, by rw [x3]; rfl, ?_, ?_, ?_⟩
  · rw [a4]
    simp only [gainOf_cons, gainOf_nil, lossOf_cons, lossOf_nil]
    erw [g]
    norm_num [worth, FloatP.toK, FloatP.oneSub]
  · rw [b4]
    simp only [gainOf_cons, gainOf_nil, lossOf_cons, lossOf_nil]
    erw [g0]
    norm_num [worth, FloatP.toK, FloatP.oneSub]
  · rw [x4]
    simp only [gainOf_cons, gainOf_nil, lossOf_cons, lossOf_nil, c00, c11, z]
    norm_num [worth, FloatP.toK, FloatP.oneSub]

/-- The hypotheses are met by two series and each of them alone. -/
example := ordered (F := ℝ) 2 3 (by norm_num) Sample.val Sample.oV (fun k => (OValuesN1.ofVec (table1 3 (Sample.val k))).toOValues)
  Sample.o (fun k _ => (OValuesN1.ofVec_holds (O := 3) (Sample.val k)).data)
example := hierarchical (F := ℝ) 4 Sample.tree (by decide) 2 Sample.val Sample.hV
  (fun k => (⟨1, Sample.md, table1 4 (Sample.val k)⟩ : HValuesN1 ℝ).toHValues) Sample.hRight (fun _ _ => rfl) Sample.h
  (fun k _ => (show (⟨1, Sample.md, table1 4 (Sample.val k)⟩ : HValuesN1 ℝ).Holds 4 Sample.md (Sample.val k) from ⟨rfl, rfl, rfl⟩).data)
example := spatiotemporal (F := ℝ) 4 Sample.tree (by decide) 2 3 (by norm_num) (by norm_num) (by norm_num) Sample.dVal Sample.dV
  (fun k => (⟨1, 3, Sample.md, table2 4 3 (Sample.dVal k)⟩ : DValuesN2 ℝ).toDValues) Sample.dRight (fun _ _ => rfl) Sample.d
  (fun k _ => (show (⟨1, 3, Sample.md, table2 4 3 (Sample.dVal k)⟩ : DValuesN2 ℝ).Holds 4 3 Sample.md (Sample.dVal k) from
    ⟨rfl, rfl, rfl, rfl⟩).data)

end Lp.C100
