import Verif.Proofs.Uniform
import Verif.Proofs.Samples
import Verif.Props.C19
import Verif.Props.C24

/-!
# C99 — a uniform series makes the best partitions coarser

The data have `m` series `V` and one more that is `c` everywhere (`withUniform`, `Spec/Uniform.lean`); `c` is raised to `c'`.
`coarseness` is `Σ N log₂ N` over the sizes of the parts.  At the same `p` in `[0,1]`: the parts of the best hierarchical
partition lie below parts of the new one; the best ordered and spatiotemporal partitions do not become less coarse, and if it was
one part it stays one; and if `p*c'` is at least `(1-p)` times the loss of the whole without the uniform series, the best partition
is one part.  Non-negative data, exact qualities, any rounding of `1-p`.
-/

namespace Lp.C99
open Spec
open scoped BigOperators
variable {F : Type} [FloatP F ℝ] {u : ℝ}

theorem uniform_nonneg_aux {ι : Type} {m : Nat} {V : Nat → ι → ℝ} {c : ℝ} (hc : 0 ≤ c) {k : Nat} {x : ι} (hk : k < m + 1)
    (h : k < m → 0 ≤ V k x) : 0 ≤ withUniform m V c k x := by
  unfold withUniform
  split
  · exact hc
  · exact h (by omega)

/-- Ordered data. -/
theorem ordered (fl : FloatLaws F ℝ u) (v v' : OValues ℝ) (m n : Nat) (V : Nat → Nat → ℝ) (c c' : ℝ) (hn0 : 0 < n) (hn : n ≤ 65535)
    (hv : OData v (m + 1) n (withUniform m V c)) (hv' : OData v' (m + 1) n (withUniform m V c'))
    (h0 : ∀ k i, k < m → i < n → 0 ≤ V k i) (hc : 0 ≤ c) (hcc : c < c') :
    ∃ q q' : UTM (Quality ℝ),
      (OQualities.ofValues v).computeQualities = .ok ⟨some v, some q⟩ ∧
      (OQualities.ofValues v').computeQualities = .ok ⟨some v', some q'⟩ ∧
      ∀ p : F, (0 : ℝ) ≤ FloatP.toK p → (FloatP.toK p : ℝ) ≤ 1 →
        ∃ P P', oBestPartition q p = .ok P ∧ oBestPartition q' p = .ok P' ∧
          coarseness (P.parts.map (fun x => (x.end - x.start + 1).toNat)) ≤
            coarseness (P'.parts.map (fun x => (x.end - x.start + 1).toNat)) ∧
          (P.parts.length = 1 → P'.parts.length = 1) ∧
          (FloatP.toK (FloatP.oneSub p) * lossSeries m (Finset.Icc 0 (n - 1)) V ≤ FloatP.toK p * c' → P'.parts.length = 1) := by
  have hc' : 0 ≤ c' := hc.trans hcc.le
  obtain ⟨q, e, hq⟩ := oq_object hv hn (fun k i hk hi => uniform_nonneg_aux hc hk (fun h => h0 k i h hi))
  obtain ⟨q', e', hq'⟩ := oq_object hv' hn (fun k i hk hi => uniform_nonneg_aux hc' hk (fun h => h0 k i h hi))
  refine ⟨q, q', e, e', fun p hp0 hp1 => ?_⟩
  obtain ⟨P, L, a1, a2, _, a4⟩ := oBest_top (F := F) hq p
  obtain ⟨P', M, b1, b2, _, b4⟩ := oBest_top (F := F) hq' p
  have hU : (oCells (0, n - 1)).Nonempty := by simp [oCells]
  have cutL := tiles_cuts a4.tiles hn0
  have cutM := tiles_cuts b4.tiles hn0
  have mono : coarseOf oCells L ≤ coarseOf oCells M :=
    coarse_mono (cells := oCells) hp0 hc hcc (a4.best M b4.tiles) (b4.best L a4.tiles)
  have size : ∀ (f : Nat → Nat → Quality ℝ) (N : List (Nat × Nat)),
      coarseness ((N.map (oPartOf f)).map (fun x => (x.end - x.start + 1).toNat)) = coarseOf oCells N := by
    intro f N
    rw [coarseOf_eq, List.map_map]
    congr 1
    refine List.map_congr_left (fun I _ => ?_)
    simp only [Function.comp, oPartOf, oCells, Nat.card_Icc]
    omega
  refine ⟨P, P', a1, b1, ?_, ?_, ?_⟩
  · rw [a2, b2, size, size]; exact mono
  · rw [a2, b2, List.length_map, List.length_map]
    exact whole_stays cutL cutM hU mono
  · intro hbig
    rw [b2, List.length_map]
    refine whole_wins (cells := oCells) (w := (0, n - 1)) hp0 (wLoss_nonneg fl hp1) (lt_of_le_of_lt hc hcc) cutM hU
      (nonneg_oCells h0 (by omega)) hbig (b4.best [(0, n - 1)] ?_)
    exact .cons (Nat.zero_le _) (by omega) (by rw [show n - 1 + 1 = n by omega]; exact .nil n)

/-- Hierarchical data. -/
theorem hierarchical (fl : FloatLaws F ℝ u) (leaves : Nat) (parents : List Int) (v v' : HValues ℝ)
    (hmd : RightMeta leaves parents v.md) (hmd' : RightMeta leaves parents v'.md) (hlt : leaves < parents.length) (m : Nat)
    (V : Nat → Nat → ℝ) (c c' : ℝ)
    (hv : HData v (m + 1) leaves (withUniform m V c)) (hv' : HData v' (m + 1) leaves (withUniform m V c'))
    (h0 : ∀ k h, k < m → h < leaves → 0 ≤ V k h) (hc : 0 ≤ c) (hcc : c < c') :
    ∃ q q' : List (Quality ℝ),
      (HQualities.ofValues v).computeQualities = .ok ⟨some v, some q, v.md⟩ ∧
      (HQualities.ofValues v').computeQualities = .ok ⟨some v', some q', v'.md⟩ ∧
      ∀ p : F, (0 : ℝ) ≤ FloatP.toK p → (FloatP.toK p : ℝ) ≤ 1 →
        ∃ P P', hBestPartition q v.md p = .ok P ∧ hBestPartition q' v'.md p = .ok P' ∧
          (∀ x ∈ P.parts, ∃ y ∈ P'.parts, Under parents y.h x.h) ∧
          (FloatP.toK (FloatP.oneSub p) * lossSeries m (Finset.range leaves) V ≤ FloatP.toK p * c' → P'.parts.length = 1) := by
  have hc' : 0 ≤ c' := hc.trans hcc.le
  obtain ⟨q, e, hq⟩ := hq_object hmd hlt hv (fun k i hk hi => uniform_nonneg_aux hc hk (fun h => h0 k i h hi))
  obtain ⟨q', e', hq'⟩ := hq_object hmd' hlt hv' (fun k i hk hi => uniform_nonneg_aux hc' hk (fun h => h0 k i h hi))
  refine ⟨q, q', e, e', fun p hp0 hp1 => ?_⟩
  obtain ⟨P, L, a1, a2, a3, _, a5⟩ := C19.optimal (F := F) leaves parents v.md hmd hlt q _ hq p
  obtain ⟨P', M, b1, b2, b3, _, b5⟩ := C19.optimal (F := F) leaves parents v'.md hmd' hlt q' _ hq' p
  have uni : ∀ (c : ℝ), 0 ≤ c → ∀ N : List Nat,
      valueOf (FloatP.toK p) (FloatP.toK (FloatP.oneSub p)) (fun h => entQ (m + 1) (withUniform m V c) (leavesUnder leaves parents h)) N =
        valueOf (FloatP.toK p) (FloatP.toK (FloatP.oneSub p)) (fun h => entQ m V (leavesUnder leaves parents h)) N +
          FloatP.toK p * (c * coarseOf (leavesUnder leaves parents) N) := by
    intro c hc N
    unfold valueOf
    rw [(gainOf_uniform (V := V) hc N).1, (gainOf_uniform (V := V) hc N).2]
    ring
  have under : ∀ {A B : List Nat}, Refines parents A B → ∀ a ∈ A, ∃ b ∈ B, leavesUnder leaves parents a ⊆ leavesUnder leaves parents b := by
    intro A B hr a ha
    obtain ⟨b, hb, hab⟩ := hr a ha
    exact ⟨b, hb, fun l hl => by rw [mem_leavesUnder] at hl ⊢; exact ⟨hl.1, hab.trans hl.2⟩⟩
  have href : Refines parents L M := by
    refine h_nested_tables hmd.tree ?_ a2 b2 (fun N hN => (a5 N hN).1) b5
    intro A B hA hB hr
    have g := coarseOf_coarsen (leafCover_cuts hmd.tree hA) (leafCover_cuts hmd.tree hB) (under hr)
    rw [uni c hc, uni c hc, uni c' hc', uni c' hc']
    have := mul_le_mul_of_nonneg_left (mul_le_mul_of_nonneg_left g (sub_nonneg.mpr hcc.le)) hp0
    linarith
  have e1 : P.parts.map HPart.h = L := by
    have := congrArg (List.map Prod.fst) a3
    simpa [Function.comp_def] using this
  have e2 : P'.parts.map HPart.h = M := by
    have := congrArg (List.map Prod.fst) b3
    simpa [Function.comp_def] using this
  refine ⟨P, P', a1, b1, ?_, ?_⟩
  · intro x hx
    obtain ⟨y, hy, hyx⟩ := href x.h (by rw [← e1]; exact List.mem_map_of_mem hx)
    rw [← e2] at hy
    obtain ⟨z, hz, rfl⟩ := List.mem_map.mp hy
    exact ⟨z, hz, hyx⟩
  · intro hbig
    rw [← List.length_map (f := HPart.h), e2]
    have cut := leafCover_cuts hmd.tree b2
    have hU : (leavesUnder leaves parents v.md.root).Nonempty := by
      obtain ⟨l, hl, hr⟩ := hmd.tree.exists_leaf hmd.tree.rootLt
      exact ⟨l, mem_leavesUnder.mpr ⟨hl, hr⟩⟩
    have hnn : ∀ k < m, ∀ x ∈ leavesUnder leaves parents v.md.root, 0 ≤ V k x := nonneg_hCells h0
    rw [← leavesUnder_root hmd.tree] at hbig
    have hroot : LeafCover leaves parents [v.md.root] := hSol_leafCover hmd hWhole_sol
    by_contra hne
    have hb := b5 _ hroot
    by_cases heq : valueOf (FloatP.toK p) (FloatP.toK (FloatP.oneSub p))
        (fun h => entQ (m + 1) (withUniform m V c') (leavesUnder leaves parents h)) [v.md.root] =
        valueOf (FloatP.toK p) (FloatP.toK (FloatP.oneSub p))
        (fun h => entQ (m + 1) (withUniform m V c') (leavesUnder leaves parents h)) M
    · obtain ⟨y, hy, hyr⟩ := hb.2 heq v.md.root (by simp)
      have hstay := whole_stays (Cuts.single (cells := leavesUnder leaves parents) hU) cut hU
        (coarseOf_coarsen (Cuts.single hU) cut (under (hb.2 heq))) rfl
      exact hne hstay
    · exact hne (whole_wins (cells := leavesUnder leaves parents) (w := v.md.root) hp0 (wLoss_nonneg fl hp1) (lt_of_le_of_lt hc hcc)
        cut hU hnn hbig (Or.inl (lt_of_le_of_ne hb.1 heq)))

/-- Spatiotemporal data. -/
theorem spatiotemporal (fl : FloatLaws F ℝ u) (leaves : Nat) (parents : List Int) (v v' : DValues ℝ)
    (hmd : RightMeta leaves parents v.md) (hmd' : RightMeta leaves parents v'.md) (hlt : leaves < parents.length) (m n : Nat)
    (hn0 : 0 < n) (hn : n ≤ 65535) (hb : leaves * n < 2147483648) (V : Nat → Nat × Nat → ℝ) (c c' : ℝ)
    (hv : DData v (m + 1) leaves n (withUniform m V c)) (hv' : DData v' (m + 1) leaves n (withUniform m V c'))
    (h0 : ∀ k h x, k < m → h < leaves → x < n → 0 ≤ V k (h, x)) (hc : 0 ≤ c) (hcc : c < c') :
    ∃ q q' : List (UTM (Quality ℝ)),
      (DQualities.ofValues v).computeQualities = .ok ⟨some v, some q, v.md⟩ ∧
      (DQualities.ofValues v').computeQualities = .ok ⟨some v', some q', v'.md⟩ ∧
      ∀ p : F, (0 : ℝ) ≤ FloatP.toK p → (FloatP.toK p : ℝ) ≤ 1 →
        ∃ P P', dBestPartition q v.md p = .ok P ∧ dBestPartition q' v'.md p = .ok P' ∧
          coarseness (P.parts.map (fun x => (leavesUnder leaves parents x.h).card * (x.end + 1 - x.start))) ≤
            coarseness (P'.parts.map (fun x => (leavesUnder leaves parents x.h).card * (x.end + 1 - x.start))) ∧
          (P.parts.length = 1 → P'.parts.length = 1) ∧
          (FloatP.toK (FloatP.oneSub p) * lossSeries m (Finset.range leaves ×ˢ Finset.Icc 0 (n - 1)) V ≤ FloatP.toK p * c' →
            P'.parts.length = 1) := by
  have hc' : 0 ≤ c' := hc.trans hcc.le
  obtain ⟨q, e, hq⟩ := dq_object hmd hlt hn hb hv (fun k l i hk hl hi => uniform_nonneg_aux hc hk (fun h => h0 k l i h hl hi))
  obtain ⟨q', e', hq'⟩ := dq_object hmd' hlt hn hb hv' (fun k l i hk hl hi => uniform_nonneg_aux hc' hk (fun h => h0 k l i h hl hi))
  refine ⟨q, q', e, e', fun p hp0 hp1 => ?_⟩
  obtain ⟨P, ds, L, a1, a2, _, _, a5⟩ := dBest_first (F := F) hmd hq hn0 hn p
  obtain ⟨P', ds', M, b1, b2, _, _, b5⟩ := dBest_first (F := F) hmd' hq' hn0 hn p
  have cL := dSol_cellCover hmd hn0 a5.mem
  have cM := dSol_cellCover hmd' hn0 b5.mem
  have cutL := cellCover_cuts hmd.tree cL hn0
  have cutM := cellCover_cuts hmd.tree cM hn0
  have hU : (dCells leaves parents ⟨v.md.root, 0, n - 1⟩).Nonempty := by
    obtain ⟨l, hl, hr⟩ := hmd.tree.exists_leaf hmd.tree.rootLt
    exact ⟨(l, 0), by simp [dCells, mem_leavesUnder, hl, hr]⟩
  have mono : coarseOf (dCells leaves parents) L ≤ coarseOf (dCells leaves parents) M := by
    obtain ⟨ds1, M1, s1, p1⟩ := coarse_dSol hmd hn0 cM (dSol_coarse hmd' hn0 b5.mem)
    obtain ⟨ds2, L1, s2, p2⟩ := coarse_dSol hmd' hn0 cL (dSol_coarse hmd hn0 a5.mem)
    have x1 := a5.best ds1 M1 s1
    have x2 := b5.best ds2 L1 s2
    unfold LexLe valueOf at x1 x2
    rw [gainOf_permK p1, lossOf_permK p1] at x1
    rw [gainOf_permK p2, lossOf_permK p2] at x2
    exact coarse_mono (cells := dCells leaves parents) (m := m) (V := V) (a := wGain p) (b := wLoss p) hp0 hc hcc x1 x2
  have size : ∀ (md : HMeta) (f : Nat → Nat → Nat → Quality ℝ) (N : List Rect),
      coarseness ((N.map (dPartOf md f)).map (fun x => (leavesUnder leaves parents x.h).card * (x.end + 1 - x.start))) =
        coarseOf (dCells leaves parents) N := by
    intro md f N
    rw [coarseOf_eq, List.map_map]
    congr 1
    refine List.map_congr_left (fun r _ => ?_)
    simp only [Function.comp, dPartOf, dCells, Finset.card_product, Nat.card_Icc]
  refine ⟨P, P', a1, b1, ?_, ?_, ?_⟩
  · rw [a2, b2, size, size]; exact mono
  · rw [a2, b2, List.length_map, List.length_map]
    exact whole_stays cutL cutM hU mono
  · intro hbig
    rw [b2, List.length_map]
    have hw : dCells leaves parents ⟨v.md.root, 0, n - 1⟩ = Finset.range leaves ×ˢ Finset.Icc 0 (n - 1) := by
      unfold dCells; rw [leavesUnder_root hmd.tree]
    rw [← hw] at hbig
    have cw : CellCover leaves parents n [⟨v.md.root, 0, n - 1⟩] := by
      classical
      refine ⟨fun r hr => ?_, fun l t hl ht => ?_⟩
      · simp only [List.mem_singleton] at hr
        subst hr
        exact ⟨hmd.tree.rootLt, Nat.zero_le _, by show n - 1 < n; omega⟩
      · have : l ∈ leavesUnder leaves parents v.md.root := by rw [leavesUnder_root hmd.tree]; exact Finset.mem_range.mpr hl
        have hu := (mem_leavesUnder.mp this).2
        refine ⟨0, ⟨_, rfl, hu, Nat.zero_le _, by show t ≤ n - 1; omega⟩, ?_⟩
        rintro k ⟨a, ha, _⟩
        have := (List.getElem?_eq_some_iff.mp ha).1
        simpa using this
    have cf : CoarseFirst parents [⟨v.md.root, 0, n - 1⟩] := by
      intro r hr s hs hne _
      simp only [List.mem_singleton] at hr hs
      subst hr; subst hs
      exact absurd rfl hne
    obtain ⟨ds1, W, s1, p1⟩ := coarse_dSol hmd' hn0 cw cf
    have x1 := b5.best ds1 W s1
    unfold LexLe valueOf at x1
    rw [gainOf_permK p1, lossOf_permK p1] at x1
    exact whole_wins (cells := dCells leaves parents) (m := m) (V := V) (w := ⟨v.md.root, 0, n - 1⟩) (a := wGain p) (b := wLoss p)
      hp0 (wLoss_nonneg fl hp1) (lt_of_le_of_lt hc hcc) cutM hU (nonneg_dCells h0 (by omega)) hbig x1

/-! ## The hypotheses are met by concrete inputs -/

/-- The values 0, 1, 2 and a uniform series that is raised from 0 to 1: at `p = 1` one part. -/
example := ordered (F := ℝ) (exactLaws ℝ) (Sample.oOf _) (Sample.oOf _) 1 3 (fun _ i => (i : ℝ)) 0 1 (by norm_num) (by norm_num)
  (Sample.oData _) (Sample.oData _) (fun _ i _ _ => Nat.cast_nonneg i) le_rfl one_pos
example : FloatP.toK (FloatP.oneSub (1 : ℝ)) * lossSeries 1 (Finset.Icc 0 (3 - 1)) (fun _ (i : Nat) => (i : ℝ)) ≤ FloatP.toK (1 : ℝ) * (1 : ℝ) := by
  norm_num [FloatP.toK, FloatP.oneSub]
example := hierarchical (F := ℝ) (exactLaws ℝ) 4 Sample.tree (Sample.hOf _) (Sample.hOf _) Sample.right Sample.right (by decide) 1
  (fun _ i => (i : ℝ)) 0 1 (Sample.hData _) (Sample.hData _) (fun _ i _ _ => Nat.cast_nonneg i) le_rfl one_pos
example := spatiotemporal (F := ℝ) (exactLaws ℝ) 4 Sample.tree (Sample.dOf _) (Sample.dOf _) Sample.right Sample.right (by decide) 1 3
  (by norm_num) (by norm_num) (by norm_num) (fun _ x => (x.1 : ℝ) + x.2) 0 1 (Sample.dData _) (Sample.dData _)
  (fun _ _ _ _ _ _ => by positivity) le_rfl one_pos

end Lp.C99
