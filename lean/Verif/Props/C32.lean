import Verif.Props.C28
import Verif.Props.C24
import Verif.Props.C11
import Verif.Props.C12
import Verif.Proofs.Extreme
import Verif.Proofs.SampleRuns

/-!
# C32 — area under the quality curve

`rnd` is the rounding of the accumulator to `float`; the statements about the value are for `rnd = id` (exact
arithmetic).
-/

namespace Lp.C32
open Spec
variable {F K P T : Type} [Field K] [LinearOrder K] [FloatP F K] {u : K}

/-- Area of the trapezoids below the polygon through the points `(gain, loss)`. -/
def area : List (Quality K) → K
  | a :: b :: l => (b.gain - a.gain) * (b.loss + a.loss) / 2 + area (b :: l)
  | _ => 0

/-- Without a search `computeAUC` reads out of range. -/
theorem before (rnd : K → K) : computeAUC rnd (PState.empty : PState F K P T) = .error .outOfBounds := rfl

theorem area_aux : ∀ (l : List (Quality K)) (a b : Quality K),
    area (l ++ [a, b]) = area (l ++ [a]) + (b.gain - a.gain) * (b.loss + a.loss) / 2 := by
  intro l
  induction l with
  | nil => intro a b; simp [area]
  | cons x l ih =>
    intro a b
    cases l with
    | nil => simp [area]
    | cons y l =>
      have := ih a b
      simp only [List.cons_append] at this ⊢
      simp only [area]
      rw [this]; ring

variable [IsStrictOrderedRing K]

omit [IsStrictOrderedRing K] in
theorem value_aux (fl : FloatLaws F K u) (st : PState F K P T) (L : List F) (Q : F → Quality K)
    (e1 : st.pList = L) (e3 : st.qualityList = L.map (fun p => (p, Q p))) (hne : L ≠ []) :
    computeAUC id st = .ok (1 - area (L.map Q)) := by
  subst e1
  unfold computeAUC
  have hlen : st.pList.length ≠ 0 := by simpa using hne
  rw [if_neg hlen]
  obtain ⟨auc, h1, h2⟩ := forUp_inv (lo := 0) (hi := st.pList.length - 1) (s := (0 : K)) (f := fun i (auc : K) => do
      let a ← vget st.pList i
      let b ← vget st.pList (i + 1)
      let qa ← mapDeref a st.qualityList
      let qb ← mapDeref b st.qualityList
      return id (auc + (qb.gain - qa.gain) * (qb.loss + qa.loss) / (1 + 1)))
    (fun i auc => auc = area ((st.pList.take (i + 1)).map Q)) (Nat.zero_le _)
    (by
      cases h : st.pList with
      | nil => rw [h] at hlen; simp at hlen
      | cons x l => simp [area])
    (by
      intro k s _ hk hs
      have k1 : k < st.pList.length := by omega
      have k2 : k + 1 < st.pList.length := by omega
      simp only [vget_ok k1, vget_ok k2, okBind]
      rw [e3, mapDeref_ent fl Q (List.getElem_mem k1), mapDeref_ent fl Q (List.getElem_mem k2)]
      refine ⟨_, rfl, ?_⟩
      have t2 : st.pList.take (k + 1 + 1) = st.pList.take k ++ [st.pList[k], st.pList[k + 1]] := by
        rw [List.take_succ_eq_append_getElem k2, List.take_succ_eq_append_getElem k1, List.append_assoc]; rfl
      have t1 : st.pList.take (k + 1) = st.pList.take k ++ [st.pList[k]] := List.take_succ_eq_append_getElem k1
      rw [t1] at hs
      rw [t2, List.map_append, List.map_cons, List.map_cons, List.map_nil, area_aux, hs]
      simp only [List.map_append, List.map_cons, List.map_nil, id]
      norm_num)
  rw [h1]
  simp only [okBind]
  rw [h2, show st.pList.length - 1 + 1 = st.pList.length by omega, List.take_length]
  rfl

omit [IsStrictOrderedRing K] in
/-- After a search, `computeAUC` is 1 minus the area below the polygon of the qualities of `getQualityList()`, in
the order of the parameters. -/
theorem value (fl : FloatLaws F K u) (ops : PartOps F K P T) (ho : IsPartitioner ops) (t lo hi : F)
    (h0 : (0 : K) ≤ FloatP.toK lo) (hlt : (FloatP.toK lo : K) < FloatP.toK hi) (h1 : (FloatP.toK hi : K) ≤ 1)
    (fuel : Nat) (st st' : PState F K P T) (h : computeBestPartitions ops false fuel t lo hi st = .ok st') :
    computeAUC id st' = .ok (1 - area (st'.qualityList.map Prod.snd)) := by
  obtain ⟨B, so⟩ := isPartitioner_ops ho
  obtain ⟨S, hc, hb, e1, hs, e2, e3, e4⟩ := search_full fl so h0 hlt h1 h
  have hne : st'.pList ≠ [] := by rw [e1]; simp [keep]
  rw [value_aux fl st' st'.pList (fun p => ops.quality (B p)) rfl e3 hne, e3, List.map_map]
  rfl

theorem grows_aux (fl : FloatLaws F K u) {ops : PartOps F K P T} (ho : IsPartitioner ops) (p p' : F)
    (h0 : (0 : K) ≤ FloatP.toK p) (hlt : (FloatP.toK p : K) < FloatP.toK p') (h1 : (FloatP.toK p' : K) ≤ 1)
    (Pp Pp' : P) (e : ops.best p = .ok Pp) (e' : ops.best p' = .ok Pp') :
    C24.Grows (ops.quality Pp) (ops.quality Pp') := by
  cases ho with
  | ordered q n f hq => exact C24.ordered fl q n f hq p p' h0 hlt h1 _ _ e e'
  | hierarchical leaves parents md q Q hmd hlt' hq =>
    exact C24.hierarchical fl leaves parents md hmd hlt' q Q hq p p' h0 hlt h1 _ _ e e'
  | spatiotemporal leaves parents md n q Q hmd hn0 hn hq =>
    exact C24.spatiotemporal fl leaves parents md hmd n hn0 hn q Q hq p p' h0 hlt h1 _ _ e e'

theorem bounds_aux : ∀ (l : List (Quality K)) (a : Quality K),
    (a :: l).Pairwise C24.Grows → (∀ q ∈ a :: l, 0 ≤ q.loss ∧ q.loss ≤ 1 ∧ q.gain ≤ 1) →
    0 ≤ area (a :: l) ∧ area (a :: l) ≤ 1 - a.gain := by
  intro l
  induction l with
  | nil => intro a _ h; have := h a (by simp); simp only [area]; constructor <;> linarith
  | cons b l ih =>
    intro a hp h
    rw [List.pairwise_cons] at hp
    obtain ⟨i1, i2⟩ := ih b hp.2 (fun q hq => h q (by simp [hq]))
    have hg := (hp.1 b (by simp)).1
    obtain ⟨a0, a1, _⟩ := h a (by simp)
    obtain ⟨b0, b1, _⟩ := h b (by simp)
    have d : 0 ≤ b.gain - a.gain := by linarith
    have e1 : 0 ≤ (b.gain - a.gain) * (b.loss + a.loss) / 2 := by
      have := mul_nonneg d (by linarith : (0 : K) ≤ b.loss + a.loss); linarith
    have e2 : (b.gain - a.gain) * (b.loss + a.loss) / 2 ≤ b.gain - a.gain := by
      have := mul_le_mul_of_nonneg_left (by linarith : b.loss + a.loss ≤ 2) d; linarith
    simp only [area]
    constructor <;> linarith

/-- If the qualities of the returned partitions lie in the unit square, `computeAUC` is in `[0,1]`. -/
theorem unitSquare (fl : FloatLaws F K u) (ops : PartOps F K P T) (ho : IsPartitioner ops) (t lo hi : F)
    (h0 : (0 : K) ≤ FloatP.toK lo) (hlt : (FloatP.toK lo : K) < FloatP.toK hi) (h1 : (FloatP.toK hi : K) ≤ 1)
    (fuel : Nat) (st st' : PState F K P T) (h : computeBestPartitions ops false fuel t lo hi st = .ok st')
    (hu : ∀ e ∈ st'.qualityList, 0 ≤ e.2.gain ∧ e.2.gain ≤ 1 ∧ 0 ≤ e.2.loss ∧ e.2.loss ≤ 1) :
    ∃ a, computeAUC id st' = .ok a ∧ 0 ≤ a ∧ a ≤ 1 := by
  refine ⟨_, value fl ops ho t lo hi h0 hlt h1 fuel st st' h, ?_⟩
  obtain ⟨B, so⟩ := isPartitioner_ops ho
  obtain ⟨S, hc, hb, e1, hs, e2, e3, e4⟩ := search_full fl so h0 hlt h1 h
  have hrange := (C28.list fl ops ho t lo hi h0 hlt h1 fuel st st' h).2.2.1
  have hgrow : (st'.qualityList.map Prod.snd).Pairwise C24.Grows := by
    rw [e3, List.map_map, List.pairwise_map]
    refine List.Pairwise.imp_of_mem ?_ hs
    intro x y hx hy hxy
    exact grows_aux fl ho x y (le_trans h0 (hrange x hx).1) hxy (le_trans (hrange y hy).2 h1) _ _ (so.best x) (so.best y)
  have hne : st'.qualityList.map Prod.snd ≠ [] := by rw [e3, e1]; simp [keep]
  cases hl : st'.qualityList.map Prod.snd with
  | nil => exact absurd hl hne
  | cons a l =>
    rw [hl] at hgrow
    have hu' : ∀ q ∈ a :: l, 0 ≤ q.gain ∧ q.gain ≤ 1 ∧ 0 ≤ q.loss ∧ q.loss ≤ 1 := by
      intro q hq
      rw [← hl] at hq
      obtain ⟨e, he, rfl⟩ := List.mem_map.mp hq
      exact hu e he
    obtain ⟨b1, b2⟩ := bounds_aux l a hgrow (fun q hq => ⟨(hu' q hq).2.2.1, (hu' q hq).2.2.2, (hu' q hq).2.1⟩)
    have := (hu' a (by simp)).1
    constructor <;> linarith

omit [IsStrictOrderedRing K] in
theorem best_aux (fl : FloatLaws F K u) {ops : PartOps F K P T} (ho : IsPartitioner ops) {t lo hi : F}
    (h0 : (0 : K) ≤ FloatP.toK lo) (hlt : (FloatP.toK lo : K) < FloatP.toK hi) (h1 : (FloatP.toK hi : K) ≤ 1)
    {fuel : Nat} {st st' : PState F K P T} (h : computeBestPartitions ops false fuel t lo hi st = .ok st') :
    ∀ e ∈ st'.qualityList, ∃ p P, ops.best p = .ok P ∧ e.2 = ops.quality P := by
  obtain ⟨B, so⟩ := isPartitioner_ops ho
  obtain ⟨S, hc, hb, e1, hs, e2, e3, e4⟩ := search_full fl so h0 hlt h1 h
  intro e he
  rw [e3] at he
  obtain ⟨p, _, rfl⟩ := List.mem_map.mp he
  exact ⟨p, B p, so.best p, rfl⟩

theorem scaled_aux {A : Type} (q : A → Quality ℝ) (G D : ℝ) (L : List A) :
    gainOf (fun a => (⟨(q a).gain / G, (q a).loss / D⟩ : Quality ℝ)) L = gainOf q L / G ∧
    lossOf (fun a => (⟨(q a).gain / G, (q a).loss / D⟩ : Quality ℝ)) L = lossOf q L / D := by
  unfold gainOf lossOf
  constructor <;> simp only [div_eq_mul_inv] <;> rw [List.sum_map_mul_right]

theorem square_aux {A ι : Type} {m : Nat} {V : Nat → ι → ℝ} {cells : A → Finset ι} {L : List A} {w : A}
    (hc : Cuts cells L (cells w)) (hn : (cells w).Nonempty) (hv : ∀ k < m, ∀ x ∈ cells w, 0 ≤ V k x)
    {q' : A → Quality ℝ} (e : q' = fun a => ⟨(entQ m V (cells a)).gain / (entQ m V (cells w)).gain,
      (entQ m V (cells a)).loss / (entQ m V (cells w)).loss⟩) :
    0 ≤ gainOf q' L ∧ gainOf q' L ≤ 1 ∧ 0 ≤ lossOf q' L ∧ lossOf q' L ≤ 1 := by
  subst e
  rw [(scaled_aux (fun a => entQ m V (cells a)) _ _ L).1, (scaled_aux (fun a => entQ m V (cells a)) _ _ L).2]
  have h1 := hc.whole hn hv
  have h2 := hc.nonneg hv
  have h3 := entQ_nonneg (m := m) hv
  exact ⟨div_nonneg h2.1 h3.1, div_le_one_of_le₀ h1.1 h3.1, div_nonneg h2.2 h3.2, div_le_one_of_le₀ h1.2 h3.2⟩

/-- Ordered, non-negative data whose whole has non-zero gain and loss: after `computeQualities()`, `normalize()` and a
search, `computeAUC` is in `[0,1]`.  (`hg` and `hl` keep the division meaningful; the proof does not need them.) -/
theorem orderedNormalized {F : Type} [FloatP F ℝ] {u : ℝ} (fl : FloatLaws F ℝ u) (v : OValues ℝ) (m n : Nat) (V : Nat → Nat → ℝ)
    (hv : OData v m n V) (hn0 : 0 < n) (hn : n ≤ 65535) (hpos : ∀ k i, k < m → i < n → 0 ≤ V k i)
    (hg : gainSeries m (Finset.Icc 0 (n - 1)) V ≠ 0) (hl : lossSeries m (Finset.Icc 0 (n - 1)) V ≠ 0) :
    ∃ q, ((OQualities.ofValues v).computeQualities >>= OQualities.normalize) = .ok ⟨some v, some q⟩ ∧
      ∀ (t lo hi : F), (0 : ℝ) ≤ FloatP.toK lo → (FloatP.toK lo : ℝ) < FloatP.toK hi → (FloatP.toK hi : ℝ) ≤ 1 →
        ∀ fuel st st', computeBestPartitions (oOps (F := F) q) false fuel t lo hi st = .ok st' →
          ∃ a : ℝ, computeAUC id st' = .ok a ∧ 0 ≤ a ∧ a ≤ 1 := by
  obtain ⟨q, e, hq⟩ := oq_object hv hn hpos
  obtain ⟨q', e', hq'⟩ := oqNormalize_spec hq hn0
  refine ⟨q', by rw [e]; exact oNormalize_object hv.osize hn0 e', ?_⟩
  intro t lo hi h0 hlt h1 fuel st st' h
  have ho : IsPartitioner (oOps (F := F) q') := .ordered q' n _ hq'
  refine unitSquare fl _ ho t lo hi h0 hlt h1 fuel st st' h (fun x hx => ?_)
  obtain ⟨p, P, hP, hQ⟩ := best_aux fl ho h0 hlt h1 h x hx
  obtain ⟨P', ds, L, e1, _, e3, _, e5⟩ := oBest_lex hq' p
  obtain rfl : P = P' := Except.ok.inj (hP.symm.trans e1)
  rw [hQ, show (oOps (F := F) q').quality P = P.quality from rfl, e3]
  exact square_aux (cells := oCells) (w := (0, n - 1)) (tiles_cuts (oSol_tiles e5.mem 0 rfl (by omega)) hn0)
    (by simp [oCells]) (nonneg_oCells hpos (by omega)) rfl

/-- Hierarchical: the same if the root has the highest number (see C12). -/
theorem hierarchicalNormalized {F : Type} [FloatP F ℝ] {u : ℝ} (fl : FloatLaws F ℝ u) (leaves : Nat) (parents : List Int)
    (v : HValues ℝ) (hmd : RightMeta leaves parents v.md) (hleaf : leaves < parents.length)
    (hroot : v.md.root = parents.length - 1) (m : Nat) (V : Nat → Nat → ℝ)
    (hv : HData v m leaves V) (hpos : ∀ k h, k < m → h < leaves → 0 ≤ V k h)
    (hg : gainSeries m (Finset.range leaves) V ≠ 0) (hl : lossSeries m (Finset.range leaves) V ≠ 0) :
    ∃ q, ((HQualities.ofValues v).computeQualities >>= HQualities.normalize) = .ok ⟨some v, some q, v.md⟩ ∧
      ∀ (t lo hi : F), (0 : ℝ) ≤ FloatP.toK lo → (FloatP.toK lo : ℝ) < FloatP.toK hi → (FloatP.toK hi : ℝ) ≤ 1 →
        ∀ fuel st st', computeBestPartitions (hOps (F := F) q v.md) false fuel t lo hi st = .ok st' →
          ∃ a : ℝ, computeAUC id st' = .ok a ∧ 0 ≤ a ∧ a ≤ 1 := by
  obtain ⟨q, e, hq⟩ := hq_object hmd hleaf hv hpos
  obtain ⟨q', e', hq'⟩ := hqNormalize_spec hq hmd.tree.rootLt
  have hq' := hq'.congr (f := _) (g := fun h => ⟨(entQ m V (leavesUnder leaves parents h)).gain /
      (entQ m V (leavesUnder leaves parents v.md.root)).gain, (entQ m V (leavesUnder leaves parents h)).loss /
      (entQ m V (leavesUnder leaves parents v.md.root)).loss⟩)
    (fun x hx => by unfold nDiv; rw [if_neg (by omega)]; rfl)
  refine ⟨q', by rw [e]; exact hNormalize_object e', ?_⟩
  intro t lo hi h0 hlt h1 fuel st st' h
  have ho : IsPartitioner (hOps (F := F) q' v.md) := .hierarchical leaves parents v.md q' _ hmd hleaf hq'
  refine unitSquare fl _ ho t lo hi h0 hlt h1 fuel st st' h (fun x hx => ?_)
  obtain ⟨p, P, hP, hQ⟩ := best_aux fl ho h0 hlt h1 h x hx
  obtain ⟨P', ds, L, e1, _, e3, _, e5, _⟩ := hBest_first hmd hleaf hq' p
  obtain rfl : P = P' := Except.ok.inj (hP.symm.trans e1)
  rw [hQ, show (hOps (F := F) q' v.md).quality P = P.quality from rfl, e3]
  exact square_aux (cells := leavesUnder leaves parents) (w := v.md.root)
    (leafCover_cuts hmd.tree (hSol_leafCover hmd e5.mem)) (leaves_nonempty hmd.tree hmd.tree.rootLt) (nonneg_hCells hpos) rfl

/-- Spatiotemporal: the same if the root has the highest number. -/
theorem spatiotemporalNormalized {F : Type} [FloatP F ℝ] {u : ℝ} (fl : FloatLaws F ℝ u) (leaves : Nat) (parents : List Int)
    (v : DValues ℝ) (hmd : RightMeta leaves parents v.md) (hleaf : leaves < parents.length)
    (hroot : v.md.root = parents.length - 1) (m n : Nat) (hn0 : 0 < n) (hn : n ≤ 65535)
    (hb : leaves * n < 2147483648) (V : Nat → Nat × Nat → ℝ) (hv : DData v m leaves n V)
    (hpos : ∀ k h x, k < m → h < leaves → x < n → 0 ≤ V k (h, x))
    (hg : gainSeries m (Finset.range leaves ×ˢ Finset.Icc 0 (n - 1)) V ≠ 0)
    (hl : lossSeries m (Finset.range leaves ×ˢ Finset.Icc 0 (n - 1)) V ≠ 0) :
    ∃ q, ((DQualities.ofValues v).computeQualities >>= DQualities.normalize) = .ok ⟨some v, some q, v.md⟩ ∧
      ∀ (t lo hi : F), (0 : ℝ) ≤ FloatP.toK lo → (FloatP.toK lo : ℝ) < FloatP.toK hi → (FloatP.toK hi : ℝ) ≤ 1 →
        ∀ fuel st st', computeBestPartitions (dOps (F := F) q v.md) false fuel t lo hi st = .ok st' →
          ∃ a : ℝ, computeAUC id st' = .ok a ∧ 0 ≤ a ∧ a ≤ 1 := by
  obtain ⟨q, e, hq⟩ := dq_object hmd hleaf hn hb hv hpos
  obtain ⟨q', e', hq'⟩ := dqNormalize_spec hq hmd.tree.rootLt hmd.hsize hn0 hn
  have hq' := hq'.congr (g := fun h i j => ⟨(entQ m V (dCells leaves parents ⟨h, i, j⟩)).gain /
      (entQ m V (dCells leaves parents ⟨v.md.root, 0, n - 1⟩)).gain, (entQ m V (dCells leaves parents ⟨h, i, j⟩)).loss /
      (entQ m V (dCells leaves parents ⟨v.md.root, 0, n - 1⟩)).loss⟩)
    (fun x i j hx _ _ => by unfold nDiv; rw [if_neg (by omega)]; rfl)
  refine ⟨q', by rw [e]; exact dNormalize_object hv.osize hn0 e', ?_⟩
  intro t lo hi h0 hlt h1 fuel st st' h
  have ho : IsPartitioner (dOps (F := F) q' v.md) := .spatiotemporal leaves parents v.md n q' _ hmd hn0 hn hq'
  refine unitSquare fl _ ho t lo hi h0 hlt h1 fuel st st' h (fun x hx => ?_)
  obtain ⟨p, P, hP, hQ⟩ := best_aux fl ho h0 hlt h1 h x hx
  obtain ⟨P', ds, L, e1, _, e3, _, e5⟩ := dBest_first hmd hq' hn0 hn p
  obtain rfl : P = P' := Except.ok.inj (hP.symm.trans e1)
  rw [hQ, show (dOps (F := F) q' v.md).quality P = P.quality from rfl, e3]
  exact square_aux (cells := dCells leaves parents) (w := ⟨v.md.root, 0, n - 1⟩)
    (cellCover_cuts hmd.tree (dSol_cellCover hmd hn0 e5.mem) hn0)
    ((leaves_nonempty hmd.tree hmd.tree.rootLt).product (Finset.nonempty_Icc.mpr (Nat.zero_le _)))
    (nonneg_dCells hpos (by omega)) rfl

/-! ## Concrete case -/

example : (do let st ← computeBestPartitions (oOps C16.exQ) false 10 (1 / 4 : ℚ) 0 1 PState.empty
              computeAUC id st : Res ℚ) = .ok (1 - ((2 * 1 : ℚ) / 2 + 4 * 9 / 2)) := by decide +kernel

/-- The hypotheses of `orderedNormalized` are met by the data 1, 0, 2. -/
example : ∃ q, ((OQualities.ofValues (OValuesN1.ofVec ([1, 0, 2] : List ℝ)).toOValues).computeQualities >>= OQualities.normalize) =
      .ok ⟨some (OValuesN1.ofVec [1, 0, 2]).toOValues, some q⟩ ∧
    ∀ fuel st st', computeBestPartitions (oOps (F := ℝ) q) false fuel (1 / 100) 0 1 st = .ok st' →
      ∃ a : ℝ, computeAUC id st' = .ok a ∧ 0 ≤ a ∧ a ≤ 1 := by
  have hp : ∀ k i : Nat, k < 1 → i < 3 → 0 ≤ (fun _ i => if i = 2 then (2 : ℝ) else if i = 1 then 0 else 1) k i :=
    fun k i _ _ => by dsimp only; split_ifs <;> norm_num
  obtain ⟨q, h1, h2⟩ := orderedNormalized (exactLaws ℝ) _ 1 3 _
    (OValuesN1.ofVec_holds (O := 3) (fun i => if i = 2 then (2 : ℝ) else if i = 1 then 0 else 1)).data
    (by norm_num) (by norm_num) hp (by
      rw [ne_eq, gainSeries_zero_iff (fun k hk x hx => hp k x hk (by simp at hx; omega))]
      intro h
      have := h 0 (by norm_num) 0 (by norm_num) 2 (by norm_num) (by norm_num) (by norm_num)
      omega) (by
      rw [ne_eq, lossSeries_zero_iff (fun k hk x hx => hp k x hk (by simp at hx; omega))]
      intro h
      have := h 0 (by norm_num) 0 (by norm_num) 2 (by norm_num)
      norm_num at this)
  exact ⟨q, h1, h2 _ 0 1 (le_refl _) (by simp) (le_refl _)⟩

/-! ## The hypotheses are met by concrete inputs (`Proofs/Samples.lean`) -/

example := value (exactLaws ℚ) _ Sample.oIs (1 / 16) 0 1 (by decide +kernel) (by decide +kernel) (by decide +kernel) 20 _ _  Sample.oRun
example := value (exactLaws ℚ) _ Sample.hIs (1 / 16) 0 1 (by decide +kernel) (by decide +kernel) (by decide +kernel) 20 _ _  Sample.hRun
example := value (exactLaws ℚ) _ Sample.dIs (1 / 16) 0 1 (by decide +kernel) (by decide +kernel) (by decide +kernel) 20 _ _  Sample.dRun
example := hierarchicalNormalized (exactLaws ℝ) 4 Sample.tree Sample.hV Sample.right (by decide) Sample.root 2 _ Sample.h Sample.h_nonneg Sample.h_whole.1
  Sample.h_whole.2
example := spatiotemporalNormalized (exactLaws ℝ) 4 Sample.tree Sample.dV Sample.right (by decide) Sample.root 2 3 (by decide) (by decide) (by decide) _
  Sample.d Sample.d_nonneg Sample.d_whole.1 Sample.d_whole.2

end Lp.C32
