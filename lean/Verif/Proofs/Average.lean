import Verif.Proofs.Together
import Verif.Proofs.TogetherH
import Verif.Proofs.Description
import Verif.Proofs.Weights

/-!
# Data replaced by its averages over the parts of a partition
-/

namespace Lp
open Spec
open scoped BigOperators
variable {A ι : Type} {m : Nat} {V W : Nat → ι → ℝ}

/-- Sums of whole parts are kept. -/
theorem averages_sum {cells : A → Finset ι} {L : List A} {U s : Finset ι} (hL : Cuts cells L U) (hW : Averages m V W cells L)
    (hsU : s ⊆ U) (hs : ∀ a ∈ L, cells a ⊆ s ∨ Disjoint (cells a) s) : ∀ k < m, ∑ x ∈ s, W k x = ∑ x ∈ s, V k x := by
  classical
  intro k hk
  have e : ∀ f : ι → ℝ, ∑ x ∈ s, f x = (L.map (fun a => ∑ x ∈ cells a, if x ∈ s then f x else 0)).sum := by
    intro f
    rw [hL.sum, ← Finset.sum_filter]
    congr 1
    ext x
    simp only [Finset.mem_filter]
    exact ⟨fun h => ⟨hsU h, h⟩, fun h => h.2⟩
  rw [e, e]
  refine list_sum_congr (fun a ha => ?_)
  rcases hs a ha with h | h
  · have c : ∀ f : ι → ℝ, ∑ x ∈ cells a, (if x ∈ s then f x else 0) = ∑ x ∈ cells a, f x := fun f =>
      Finset.sum_congr rfl (fun x hx => if_pos (h hx))
    rw [c, c, Finset.sum_congr rfl (fun x hx => hW k hk a ha x hx), Finset.sum_const, nsmul_eq_mul]
    have : ((cells a).card : ℝ) ≠ 0 := by
      have := Finset.card_pos.mpr (hL.ne a ha)
      exact_mod_cast this.ne'
    field_simp
  · have c : ∀ f : ι → ℝ, ∑ x ∈ cells a, (if x ∈ s then f x else 0) = 0 := fun f =>
      Finset.sum_eq_zero (fun x hx => if_neg (Finset.disjoint_left.mp h hx))
    rw [c, c]

/-- What averaging takes from the gain and adds to the loss. -/
noncomputable def averageShift (m : Nat) (V W : Nat → ι → ℝ) (s : Finset ι) : ℝ :=
  ∑ x ∈ s, ∑ k ∈ Finset.range m, (xlog2 (W k x) - xlog2 (V k x))

theorem entQ_average {s : Finset ι} (h : ∀ k < m, ∑ x ∈ s, W k x = ∑ x ∈ s, V k x) :
    (entQ m V s).gain = (entQ m W s).gain + averageShift m V W s ∧
    (entQ m V s).loss = (entQ m W s).loss - averageShift m V W s := by
  have g : ∀ k < m, gainOver s (V k) = gainOver s (W k) + ∑ x ∈ s, (xlog2 (W k x) - xlog2 (V k x)) := by
    intro k hk
    unfold gainOver
    rw [h k hk, Finset.sum_sub_distrib]
    ring
  have l : ∀ k < m, lossOver s (V k) = lossOver s (W k) - ∑ x ∈ s, (xlog2 (W k x) - xlog2 (V k x)) := by
    intro k hk
    unfold lossOver
    rw [g k hk, h k hk]
    ring
  unfold entQ averageShift gainSeries lossSeries
  rw [Finset.sum_comm, ← Finset.sum_add_distrib, ← Finset.sum_sub_distrib]
  exact ⟨Finset.sum_congr rfl (fun k hk => g k (Finset.mem_range.mp hk)),
    Finset.sum_congr rfl (fun k hk => l k (Finset.mem_range.mp hk))⟩

theorem average_totals {cells : A → Finset ι} {M : List A} {U : Finset ι} (hM : Cuts cells M U)
    (h : ∀ b ∈ M, ∀ k < m, ∑ x ∈ cells b, W k x = ∑ x ∈ cells b, V k x) :
    gainOf (fun b => entQ m V (cells b)) M = gainOf (fun b => entQ m W (cells b)) M + averageShift m V W U ∧
    lossOf (fun b => entQ m V (cells b)) M = lossOf (fun b => entQ m W (cells b)) M - averageShift m V W U := by
  have e : averageShift m V W U = (M.map (fun b => averageShift m V W (cells b))).sum := (hM.sum _).symm
  have add : ∀ (f g : A → ℝ) (M : List A), (M.map (fun b => f b + g b)).sum = (M.map f).sum + (M.map g).sum := by
    intro f g M
    induction M with
    | nil => simp
    | cons b M ih => simp only [List.map_cons, List.sum_cons, ih]; ring
  rw [e]
  unfold gainOf lossOf
  constructor
  · rw [← add]
    exact list_sum_congr (fun b hb => (entQ_average (h b hb)).1)
  · rw [← list_sum_sub]
    exact list_sum_congr (fun b hb => (entQ_average (h b hb)).2)

/-- Two first optimal solutions whose gains and losses differ by the same amounts are the same. -/
theorem LexFirst.shift {σ : Type} {decs : Decs σ A} {st : List σ} {a b D : ℝ} {q q' : A → Quality ℝ} {ds ds' : List Nat}
    {L L' : List A} (h : LexFirst (Sol decs st) a b q ds L) (h' : LexFirst (Sol decs st) a b q' ds' L')
    (g : gainOf q L = gainOf q' L + D) (l : lossOf q L = lossOf q' L - D)
    (g' : gainOf q L' = gainOf q' L' + D) (l' : lossOf q L' = lossOf q' L' - D) : L = L' := by
  have e1 := h.best ds' L' h'.mem
  have e2 := h'.best ds L h.mem
  unfold LexLe valueOf at e1 e2
  rw [g, l, g', l'] at e1
  have hg : gainOf q' L' = gainOf q' L := by
    rcases e1 with e1 | ⟨e1, e1' | ⟨e1', _⟩⟩ <;> rcases e2 with e2 | ⟨e2, e2' | ⟨e2', _⟩⟩ <;> linarith
  have hl : lossOf q' L' = lossOf q' L := by
    rcases e1 with e1 | ⟨e1, e1' | ⟨_, e1'⟩⟩ <;> rcases e2 with e2 | ⟨e2, e2' | ⟨_, e2'⟩⟩ <;> linarith
  have f1 := h.first ds' L' h'.mem (by rw [g, g', hg]) (by rw [l, l', hl])
  have f2 := h'.first ds L h.mem hg.symm hl.symm
  have : ds = ds' := by
    rcases f1 with e | e
    · exact e
    · rcases f2 with e' | e'
      · exact e'.symm
      · exact absurd e' e.asymm
  subst this
  exact h.mem.unique h'.mem

theorem ValFirst.shift {σ : Type} {decs : Decs σ A} {st : List σ} {a b D : ℝ} {q q' : A → Quality ℝ} {ds ds' : List Nat}
    {L L' : List A} (h : ValFirst (Sol decs st) a b q ds L) (h' : ValFirst (Sol decs st) a b q' ds' L')
    (g : gainOf q L = gainOf q' L + D) (l : lossOf q L = lossOf q' L - D)
    (g' : gainOf q L' = gainOf q' L' + D) (l' : lossOf q L' = lossOf q' L' - D) : L = L' := by
  have e1 := h.best ds' L' h'.mem
  have e2 := h'.best ds L h.mem
  unfold valueOf at e1 e2
  rw [g, l, g', l'] at e1
  have f1 := h.first ds' L' h'.mem (by unfold valueOf; rw [g, l, g', l']; linarith)
  have f2 := h'.first ds L h.mem (by unfold valueOf; linarith)
  have : ds = ds' := by
    rcases f1 with e | e
    · exact e
    · rcases f2 with e' | e'
      · exact e'.symm
      · exact absurd e' e.asymm
  subst this
  exact h.mem.unique h'.mem

/-- Averages over the parts are not negative, and positive where the part has a positive value. -/
theorem averages_nonneg {cells : A → Finset ι} {L : List A} {U : Finset ι} (hL : Cuts cells L U) (hW : Averages m V W cells L)
    (h0 : ∀ k < m, ∀ x ∈ U, 0 ≤ V k x) : ∀ k < m, ∀ x ∈ U, 0 ≤ W k x ∧ (0 < V k x → 0 < W k x) := by
  intro k hk x hx
  obtain ⟨i, hi, _⟩ := exactlyOne_fin (hL.one x hx)
  have ha : L[i] ∈ L := List.getElem_mem _
  have hn : ∀ y ∈ cells L[i], 0 ≤ V k y := fun y hy => h0 k hk y (hL.sub _ ha hy)
  rw [hW k hk _ ha x hi]
  have hc : (0 : ℝ) < (cells L[i]).card := by exact_mod_cast Finset.card_pos.mpr (hL.ne _ ha)
  exact ⟨div_nonneg (Finset.sum_nonneg hn) hc.le, fun h => div_pos (lt_of_lt_of_le h (Finset.single_le_sum hn hi)) hc⟩

/-- Parts of averaged data lose nothing. -/
theorem averages_loss {cells : A → Finset ι} {L : List A} {U : Finset ι} (hL : Cuts cells L U) (hW : Averages m V W cells L)
    (h0 : ∀ k < m, ∀ x ∈ U, 0 ≤ V k x) : ∀ a ∈ L, (entQ m W (cells a)).loss = 0 := by
  intro a ha
  unfold entQ
  rw [lossSeries_zero_iff (fun k hk x hx => (averages_nonneg hL hW h0 k hk x (hL.sub a ha hx)).1)]
  intro k hk x hx y hy
  rw [hW k hk a ha x hx, hW k hk a ha y hy]

theorem lossOf_zero {q : A → Quality ℝ} {L : List A} (h : ∀ a ∈ L, (q a).loss = 0) : lossOf q L = 0 := by
  unfold lossOf
  exact List.sum_eq_zero (fun x hx => by obtain ⟨a, ha, rfl⟩ := List.mem_map.mp hx; exact h a ha)

/-- Two parts of a tiling that share a slice are equal. -/
theorem tiles_shared {a b : Nat} {L : List (Nat × Nat)} (h : Tiles a b L) {I J : Nat × Nat} (hI : I ∈ L) (hJ : J ∈ L) {t : Nat}
    (h1 : I.1 ≤ t) (h2 : t ≤ I.2) (h3 : J.1 ≤ t) (h4 : t ≤ J.2) : I = J := by
  have hb := h.bounds I hI
  obtain ⟨k, _, hu⟩ := h.exactlyOne t (by omega) (by omega)
  obtain ⟨i, hi⟩ := List.getElem?_of_mem hI
  obtain ⟨j, hj⟩ := List.getElem?_of_mem hJ
  have e1 := hu i ⟨I, hi, h1, h2⟩
  have e2 := hu j ⟨J, hj, h3, h4⟩
  rw [e1] at hi
  rw [e2, hi] at hj
  exact Option.some.inj hj

/-- Ordered: the best partition of the averaged data has the same intervals. -/
theorem oBest_average {F : Type} [FloatP F ℝ] {n : Nat} {V W : Nat → Nat → ℝ} (hn : 0 < n)
    (h0 : ∀ k i, k < m → i < n → 0 ≤ V k i) (hp : ∀ i < n, ∃ k < m, 0 < V k i) {q q' : UTM (Quality ℝ)}
    (hq : q.Rep n (fun i j => entQ m V (oCells (i, j)))) (hq' : q'.Rep n (fun i j => entQ m W (oCells (i, j)))) (p : F)
    (ha : (0 : ℝ) ≤ wGain p) (hb : (0 : ℝ) ≤ wLoss p) :
    ∃ (P : OPartition F ℝ) (L : List (Nat × Nat)), oBestPartition q p = .ok P ∧
      P.parts = L.map (oPartOf (fun i j => entQ m V (oCells (i, j)))) ∧ Tiles 0 n L ∧
      (Averages m V W oCells L → ∃ P' : OPartition F ℝ, oBestPartition q' p = .ok P' ∧
        P'.parts = L.map (oPartOf (fun i j => entQ m W (oCells (i, j)))) ∧
        P'.quality = ⟨P.quality.gain + P.quality.loss, 0⟩) := by
  obtain ⟨P, ds, L, h1, h2, h3, _, h5⟩ := oBest_lex hq p
  have ht := oSol_tiles h5.mem 0 rfl (by omega)
  have hL := tiles_cuts ht hn
  refine ⟨P, L, h1, h2, ht, fun hW => ?_⟩
  obtain ⟨P', ds', L', h1', h2', h3', _, h5'⟩ := oBest_lex hq' p
  refine ⟨P', h1', ?_⟩
  have ht' := oSol_tiles h5'.mem 0 rfl (by omega)
  have hL' := tiles_cuts ht' hn
  have hU : ∀ x, x < n → x ∈ oCells (0, n - 1) := fun x hx => by simp only [oCells, Finset.mem_Icc]; omega
  have hnn := averages_nonneg hL hW (fun k hk x hx => h0 k x hk (by simp only [oCells, Finset.mem_Icc] at hx; omega))
  have w0 : ∀ k i, k < m → i < n → 0 ≤ W k i := fun k i hk hi => (hnn k hk i (hU i hi)).1
  have coarse : ∀ I ∈ L, ∀ J ∈ L', ¬ (I.1 ≤ J.2 ∧ J.2 < I.2) := by
    rintro I hI J hJ ⟨c1, c2⟩
    have hb1 := ht.bounds I hI
    have hin : ∀ x, I.1 ≤ x → x ≤ I.2 → x ∈ oCells I := fun x hx hy => by simp only [oCells, Finset.mem_Icc]; omega
    obtain ⟨k, hk, hVk⟩ := hp J.2 (by omega)
    obtain ⟨P'', L'', e1, e2, e3⟩ := oBest_together w0 hq' p ha hb (i := J.2) (by omega)
      (fun k hk => by rw [hW k hk I hI _ (hin _ c1 c2.le), hW k hk I hI _ (hin _ (by omega) (by omega))])
      ⟨k, hk, (hnn k hk _ (hU _ (by omega))).2 hVk⟩
    rw [h1'] at e1
    obtain rfl := Except.ok.inj e1
    rw [h2'] at e2
    have : oPartOf (fun i j => entQ m W (oCells (i, j))) J ∈ L''.map (oPartOf (fun i j => entQ m W (oCells (i, j)))) := by
      rw [← e2]; exact List.mem_map_of_mem hJ
    obtain ⟨J', hJ', eq⟩ := List.mem_map.mp this
    have : ((J'.2 : Nat) : Int) = J.2 := congrArg OPart.end eq
    exact e3 J' hJ' (by exact_mod_cast this)
  -- neither the end of a part nor the slice before a part is inside a part of `L`
  have nest : ∀ I ∈ L, ∀ J ∈ L', oCells I ⊆ oCells J ∨ Disjoint (oCells I) (oCells J) := by
    intro I hI J hJ
    have b1 := ht.bounds I hI
    have b2 := ht'.bounds J hJ
    by_cases hd : I.2 < J.1 ∨ J.2 < I.1
    · right
      rw [Finset.disjoint_left]
      intro x hx hy
      simp only [oCells, Finset.mem_Icc] at hx hy
      omega
    · left
      have c1 := coarse I hI J hJ
      have c2 : J.1 ≤ I.1 := by
        by_contra hlt
        obtain ⟨t, ht2, _⟩ := ht'.exactlyOne (J.1 - 1) (by omega) (by omega)
        obtain ⟨J', hJ', hin⟩ := ht2
        have hJm : J' ∈ L' := List.mem_of_getElem? hJ'
        have b3 := ht'.bounds J' hJm
        have hend : J'.2 < J.1 := by
          by_contra hge
          have := tiles_shared ht' hJm hJ (t := J.1) (by omega) (by omega) (by omega) (by omega)
          subst this
          omega
        exact coarse I hI J' hJm (by omega)
      intro x hx
      simp only [oCells, Finset.mem_Icc] at hx ⊢
      omega
  have sums : ∀ M : List (Nat × Nat), Tiles 0 n M → (∀ I ∈ L, ∀ J ∈ M, oCells I ⊆ oCells J ∨ Disjoint (oCells I) (oCells J)) →
      ∀ J ∈ M, ∀ k < m, ∑ x ∈ oCells J, W k x = ∑ x ∈ oCells J, V k x := fun M hM hc J hJ =>
    averages_sum hL hW ((tiles_cuts hM hn).sub J hJ) (fun I hI => hc I hI J hJ)
  have same : ∀ I ∈ L, ∀ J ∈ L, oCells I ⊆ oCells J ∨ Disjoint (oCells I) (oCells J) := by
    intro I hI J hJ
    have b1 := ht.bounds I hI
    have b2 := ht.bounds J hJ
    by_cases he : I = J
    · left; rw [he]
    · right
      rw [Finset.disjoint_left]
      intro x hx hy
      simp only [oCells, Finset.mem_Icc] at hx hy
      exact he (tiles_shared ht hI hJ (t := x) hx.1 hx.2 hy.1 hy.2)
  have t1 := average_totals hL (sums L ht same)
  have t2 := average_totals hL' (sums L' ht' nest)
  have := h5.shift h5' t1.1 t1.2 t2.1 t2.2
  subst this
  refine ⟨h2', ?_⟩
  have l0 : lossOf (fun I => entQ m W (oCells I)) L = 0 := lossOf_zero
    (averages_loss hL hW (fun k hk x hx => h0 k x hk (by simp only [oCells, Finset.mem_Icc] at hx; omega)))
  rw [h3', h3]
  have g1 := t1.1
  have g2 := t1.2
  congr 1
  show _ = gainOf (fun I => entQ m V (oCells I)) L + lossOf (fun I => entQ m V (oCells I)) L
  rw [g1, g2, l0]
  ring

/-- Hierarchical: the best partition of the averaged data has the same nodes. -/
theorem hBest_average {F : Type} [FloatP F ℝ] {leaves : Nat} {parents : List Int} {md : HMeta}
    (r : RightMeta leaves parents md) (hlt : leaves < parents.length)
    {V W : Nat → Nat → ℝ} (h0 : ∀ k l, k < m → l < leaves → 0 ≤ V k l) {q q' : List (Quality ℝ)}
    (hq : VRep q parents.length (fun h => entQ m V (leavesUnder leaves parents h)))
    (hq' : VRep q' parents.length (fun h => entQ m W (leavesUnder leaves parents h))) (p : F)
    (ha : (0 : ℝ) ≤ wGain p) (hb : (0 : ℝ) ≤ wLoss p) :
    ∃ (P : HPartition F ℝ) (L : List Nat), hBestPartition q md p = .ok P ∧
      P.parts = L.map (hPartOf md (fun h => entQ m V (leavesUnder leaves parents h))) ∧ LeafCover leaves parents L ∧
      (Averages m V W (leavesUnder leaves parents) L → ∃ P' : HPartition F ℝ, hBestPartition q' md p = .ok P' ∧
        P'.parts = L.map (hPartOf md (fun h => entQ m W (leavesUnder leaves parents h))) ∧
        P'.quality = ⟨P.quality.gain + P.quality.loss, 0⟩) := by
  obtain ⟨P, ds, L, h1, h2, h3, _, h5, _⟩ := hBest_first r hlt hq p
  have hc := hSol_leafCover r h5.mem
  have hL := leafCover_cuts r.tree hc
  refine ⟨P, L, h1, h2, hc, fun hW => ?_⟩
  obtain ⟨P', ds', L', h1', h2', h3', _, h5', _⟩ := hBest_first r hlt hq' p
  refine ⟨P', h1', ?_⟩
  have hc' := hSol_leafCover r h5'.mem
  have hL' := leafCover_cuts r.tree hc'
  have hU : ∀ x, x < leaves → x ∈ leavesUnder leaves parents md.root := fun x hx => by
    rw [leavesUnder_root r.tree, Finset.mem_range]; exact hx
  have hnn := averages_nonneg hL hW (fun k hk x hx => h0 k x hk (mem_leavesUnder.mp hx).1)
  have w0 : ∀ k i, k < m → i < leaves → 0 ≤ W k i := fun k i hk hi => (hnn k hk i (hU i hi)).1
  obtain ⟨P'', L'', e1, e2, e3⟩ := hBest_leaves r hlt w0 hq' p ha hb
  have coarse : ∀ x ∈ L, ∀ y ∈ L', Under parents x y → y = x := by
    intro x hx y hy hu
    rw [h1'] at e1
    obtain rfl := Except.ok.inj e1
    rw [h2'] at e2
    have : hPartOf md (fun h => entQ m W (leavesUnder leaves parents h)) y ∈
        L''.map (hPartOf md (fun h => entQ m W (leavesUnder leaves parents h))) := by
      rw [← e2]; exact List.mem_map_of_mem hy
    obtain ⟨y', hy', eq⟩ := List.mem_map.mp this
    have eqh : y' = y := congrArg HPart.h eq
    subst eqh
    exact e3 x (hc.1 x hx) (fun k l l' hk hl hl' hu hu' => by
      rw [hW k hk x hx l (mem_leavesUnder.mpr ⟨hl, hu⟩), hW k hk x hx l' (mem_leavesUnder.mpr ⟨hl', hu'⟩)]) _ hy' hu
  have nest : ∀ x ∈ L, ∀ y ∈ L', leavesUnder leaves parents x ⊆ leavesUnder leaves parents y ∨
      Disjoint (leavesUnder leaves parents x) (leavesUnder leaves parents y) := by
    intro x hx y hy
    by_cases hd : Disjoint (leavesUnder leaves parents x) (leavesUnder leaves parents y)
    · exact .inr hd
    · left
      rw [Finset.not_disjoint_iff] at hd
      obtain ⟨l, hl1, hl2⟩ := hd
      rcases under_total (mem_leavesUnder.mp hl1).2 (mem_leavesUnder.mp hl2).2 with h | h
      · rw [coarse x hx y hy h]
      · exact under_sub h
  have same : ∀ x ∈ L, ∀ y ∈ L, leavesUnder leaves parents x ⊆ leavesUnder leaves parents y ∨
      Disjoint (leavesUnder leaves parents x) (leavesUnder leaves parents y) := by
    intro x hx y hy
    by_cases he : x = y
    · left; rw [he]
    · right
      rw [Finset.disjoint_left]
      intro l h1 h2
      obtain ⟨i, _, hu⟩ := exactlyOne_fin (hL.one l (hL.sub x hx h1))
      obtain ⟨a, ha, rfl⟩ := List.mem_iff_getElem.mp hx
      obtain ⟨b, hb, rfl⟩ := List.mem_iff_getElem.mp hy
      have := (hu ⟨a, ha⟩ h1).trans (hu ⟨b, hb⟩ h2).symm
      exact he (by have : a = b := congrArg Fin.val this
                   subst this; rfl)
  have t1 := average_totals hL (fun y hy => averages_sum hL hW (hL.sub y hy) (fun x hx => same x hx y hy))
  have t2 := average_totals hL' (fun y hy => averages_sum hL hW (hL'.sub y hy) (fun x hx => nest x hx y hy))
  have := h5.shift h5' t1.1 t1.2 t2.1 t2.2
  subst this
  refine ⟨h2', ?_⟩
  have l0 : lossOf (fun h => entQ m W (leavesUnder leaves parents h)) L = 0 := lossOf_zero
    (averages_loss hL hW (fun k hk x hx => h0 k x hk (mem_leavesUnder.mp hx).1))
  rw [h3', h3, t1.1, t1.2, l0]
  congr 1
  ring

end Lp
