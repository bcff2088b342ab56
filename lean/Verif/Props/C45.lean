import Verif.Proofs.Curve
import Verif.Proofs.SampleRuns

/-!
# C45 — the shape of the quality curve

The points `(gain, loss)` of `getQualityList()`, in the order of the parameters.
-/

namespace Lp.C45
open Spec
variable {F K P T : Type} [Field K] [LinearOrder K] [IsStrictOrderedRing K] [FloatP F K] {u : K}

/-- Two parameters whose best partitions have the same gain and loss have the same best partition: the pair (gain, loss)
identifies the partition (`same` is the partitions' `operator==`, see C38). -/
theorem identifies (ops : PartOps F K P T) (ho : IsPartitioner ops) (p p' : F) (X X' : P)
    (e : ops.best p = .ok X) (e' : ops.best p' = .ok X') (h : ops.quality X = ops.quality X') : ops.same X X' = true :=
  (isPartitioner_curve ho).det p p' X X' e e' h

omit [IsStrictOrderedRing K] in
theorem split_aux (fl : FloatLaws F K u) {ops : PartOps F K P T} (ho : IsPartitioner ops) {t lo hi : F}
    (h0 : (0 : K) ≤ FloatP.toK lo) (hlt : (FloatP.toK lo : K) < FloatP.toK hi) (h1 : (FloatP.toK hi : K) ≤ 1)
    {fuel : Nat} {st st' : PState F K P T} (h : computeBestPartitions ops false fuel t lo hi st = .ok st') :
    ∃ B : F → P, (∀ p, ops.best p = .ok (B p)) ∧ st'.qualityList = st'.pList.map (fun p => (p, ops.quality (B p))) ∧
      st'.partitions = st'.pList.map (fun p => (p, B p)) := by
  obtain ⟨B, so⟩ := isPartitioner_ops ho
  obtain ⟨S, hc, hb, e1, hs, e2, e3, e4⟩ := search_full fl so h0 hlt h1 h
  exact ⟨B, so.best, e3, e2⟩

/-- From each entry to every later one gain and loss grow, and at least one of them strictly. -/
theorem increasing (fl : FloatLaws F K u) (ops : PartOps F K P T) (ho : IsPartitioner ops) (t lo hi : F)
    (h0 : (0 : K) ≤ FloatP.toK lo) (hlt : (FloatP.toK lo : K) < FloatP.toK hi) (h1 : (FloatP.toK hi : K) ≤ 1)
    (fuel : Nat) (st st' : PState F K P T) (h : computeBestPartitions ops false fuel t lo hi st = .ok st') :
    (st'.qualityList.map Prod.snd).Pairwise (fun a b => a.gain ≤ b.gain ∧ a.loss ≤ b.loss ∧ a ≠ b) := by
  obtain ⟨B, hB, e3, e2⟩ := split_aux fl ho h0 hlt h1 h
  obtain ⟨_, hs, hr, _, _, _, hd, _⟩ := C28.list fl ops ho t lo hi h0 hlt h1 fuel st st' h
  rw [e2, List.pairwise_map] at hd
  rw [e3, List.map_map, List.pairwise_map]
  refine List.Pairwise.imp_of_mem ?_ (hs.and hd)
  rintro x y hx hy ⟨hxy, hne⟩
  have g := C32.grows_aux fl ho x y (le_trans h0 (hr x hx).1) hxy (le_trans (hr y hy).2 h1) _ _ (hB x) (hB y)
  refine ⟨g.1, g.2, fun e => ?_⟩
  have := identifies ops ho x y _ _ (hB x) (hB y) e
  rw [this] at hne
  exact Bool.noConfusion hne

/-- If the range leaves out the ends 0 and 1, gain and loss are both strictly increasing. -/
theorem strict (fl : FloatLaws F K u) (ops : PartOps F K P T) (ho : IsPartitioner ops) (t lo hi : F)
    (h0 : (0 : K) < FloatP.toK lo) (hlt : (FloatP.toK lo : K) < FloatP.toK hi) (h1 : (FloatP.toK hi : K) < 1)
    (fuel : Nat) (st st' : PState F K P T) (h : computeBestPartitions ops false fuel t lo hi st = .ok st') :
    (st'.qualityList.map Prod.snd).Pairwise (fun a b => a.gain < b.gain ∧ a.loss < b.loss) := by
  obtain ⟨B, hB, e3, e2⟩ := split_aux fl ho h0.le hlt h1.le h
  have hi := increasing fl ops ho t lo hi h0.le hlt h1.le fuel st st' h
  have hr := (C28.list fl ops ho t lo _ h0.le hlt h1.le fuel st st' h).2.2.1
  rw [e3, List.map_map, List.pairwise_map] at hi ⊢
  refine List.Pairwise.imp_of_mem ?_ hi
  rintro x y hx hy ⟨g1, g2, hne⟩
  exact (isPartitioner_curve ho).strict fl (lt_of_lt_of_le h0 (hr x hx).1) (lt_of_le_of_lt (hr y hy).2 h1) (hB x) (hB y)
    ⟨g1, g2⟩ hne

theorem strict_aux (fl : FloatLaws F K u) (ops : PartOps F K P T) (ho : IsPartitioner ops) (hnd : NotDominated ops) (t lo hi : F)
    (h0 : (0 : K) ≤ FloatP.toK lo) (hlt : (FloatP.toK lo : K) < FloatP.toK hi) (h1 : (FloatP.toK hi : K) ≤ 1)
    (fuel : Nat) (st st' : PState F K P T) (h : computeBestPartitions ops false fuel t lo hi st = .ok st') :
    (st'.qualityList.map Prod.snd).Pairwise (fun a b => a.gain < b.gain ∧ a.loss < b.loss) := by
  obtain ⟨B, hB, e3, e2⟩ := split_aux fl ho h0 hlt h1 h
  have hi := increasing fl ops ho t lo hi h0 hlt h1 fuel st st' h
  have hr := (C28.list fl ops ho t lo _ h0 hlt h1 fuel st st' h).2.2.1
  rw [e3, List.map_map, List.pairwise_map] at hi ⊢
  refine List.Pairwise.imp_of_mem ?_ hi
  rintro x y hx hy ⟨g1, g2, hne⟩
  exact hnd.strict (le_trans h0 (hr x hx).1) (le_trans (hr x hx).2 h1) (le_trans h0 (hr y hy).1) (le_trans (hr y hy).2 h1)
    (hB x) (hB y) ⟨g1, g2⟩ hne

/-- Ordered and spatiotemporal: also with the ends. -/
theorem strictOrdered (fl : FloatLaws F K u) (q : UTM (Quality K)) (n : Nat) (f : Nat → Nat → Quality K) (hq : q.Rep n f)
    (t lo hi : F) (h0 : (0 : K) ≤ FloatP.toK lo) (hlt : (FloatP.toK lo : K) < FloatP.toK hi) (h1 : (FloatP.toK hi : K) ≤ 1)
    (fuel : Nat) (st st' : PState F K (OPartition F K) _) (h : computeBestPartitions (oOps q) false fuel t lo hi st = .ok st') :
    (st'.qualityList.map Prod.snd).Pairwise (fun a b => a.gain < b.gain ∧ a.loss < b.loss) :=
  strict_aux fl _ (.ordered q n f hq) (oNotDominated fl hq) t lo hi h0 hlt h1 fuel st st' h

theorem strictSpatiotemporal (fl : FloatLaws F K u) (leaves : Nat) (parents : List Int) (md : HMeta)
    (hmd : RightMeta leaves parents md) (n : Nat) (hn0 : 0 < n) (hn : n ≤ 65535) (q : List (UTM (Quality K)))
    (Q : Nat → Nat → Nat → Quality K) (hq : MRep q parents.length n Q)
    (t lo hi : F) (h0 : (0 : K) ≤ FloatP.toK lo) (hlt : (FloatP.toK lo : K) < FloatP.toK hi) (h1 : (FloatP.toK hi : K) ≤ 1)
    (fuel : Nat) (st st' : PState F K (DPartition F K) _) (h : computeBestPartitions (dOps q md) false fuel t lo hi st = .ok st') :
    (st'.qualityList.map Prod.snd).Pairwise (fun a b => a.gain < b.gain ∧ a.loss < b.loss) :=
  strict_aux fl _ (.spatiotemporal leaves parents md n q Q hmd hn0 hn hq) (dNotDominated fl hmd hn0 hn hq) t lo hi h0 hlt h1
    fuel st st' h

/-- For any three entries in order, the gain per loss of the second step is not above that of the first (written without
division): more loss buys less and less gain. -/
theorem bends (fl : FloatLaws F K u) (ops : PartOps F K P T) (ho : IsPartitioner ops) (t lo hi : F)
    (h0 : (0 : K) ≤ FloatP.toK lo) (hlt : (FloatP.toK lo : K) < FloatP.toK hi) (h1 : (FloatP.toK hi : K) ≤ 1)
    (fuel : Nat) (st st' : PState F K P T) (h : computeBestPartitions ops false fuel t lo hi st = .ok st')
    (a b c : Quality K) (hs : [a, b, c].Sublist (st'.qualityList.map Prod.snd)) :
    (c.gain - b.gain) * (b.loss - a.loss) ≤ (b.gain - a.gain) * (c.loss - b.loss) := by
  obtain ⟨B, hB, e3, e2⟩ := split_aux fl ho h0 hlt h1 h
  obtain ⟨_, hp, hr, _⟩ := C28.list fl ops ho t lo hi h0 hlt h1 fuel st st' h
  rw [e3, List.map_map] at hs
  obtain ⟨l, hl, el⟩ := List.sublist_map_iff.mp hs
  match l, el with
  | [x, y, z], el =>
    simp only [List.map_cons, List.map_nil, List.cons.injEq, and_true, Function.comp] at el
    obtain ⟨rfl, rfl, rfl⟩ := el
    have pw := List.Pairwise.sublist hl hp
    simp only [List.pairwise_cons, List.mem_cons, List.not_mem_nil, or_false, forall_eq_or_imp, forall_eq] at pw
    have hy := hr y (hl.mem (by simp))
    have hx := hr x (hl.mem (by simp))
    have hz := hr z (hl.mem (by simp))
    exact (isPartitioner_curve ho).concave fl (le_trans h0 hy.1) (le_trans hy.2 h1) (hB x) (hB y) (hB z)
      (C32.grows_aux fl ho x y (le_trans h0 hx.1) pw.1.1 (le_trans hy.2 h1) _ _ (hB x) (hB y))
      (C32.grows_aux fl ho y z (le_trans h0 hy.1) pw.2.1 (le_trans hz.2 h1) _ _ (hB y) (hB z))

/-- If the qualities lie in the unit square and the first one has no loss, `computeAUC` is at least 1/2. -/
theorem half (fl : FloatLaws F K u) (ops : PartOps F K P T) (ho : IsPartitioner ops) (t lo hi : F)
    (h0 : (0 : K) ≤ FloatP.toK lo) (hlt : (FloatP.toK lo : K) < FloatP.toK hi) (h1 : (FloatP.toK hi : K) ≤ 1)
    (fuel : Nat) (st st' : PState F K P T) (h : computeBestPartitions ops false fuel t lo hi st = .ok st')
    (hu : ∀ e ∈ st'.qualityList, 0 ≤ e.2.gain ∧ e.2.gain ≤ 1 ∧ 0 ≤ e.2.loss ∧ e.2.loss ≤ 1)
    (hz : ∀ X, ops.best lo = .ok X → (ops.quality X).loss ≤ 0) :
    ∃ a : K, computeAUC id st' = .ok a ∧ 1 / 2 ≤ a ∧ a ≤ 1 := by
  obtain ⟨v, hv, v0, v1⟩ := C32.unitSquare fl ops ho t lo hi h0 hlt h1 fuel st st' h hu
  refine ⟨v, hv, ?_, v1⟩
  have e := C32.value fl ops ho t lo hi h0 hlt h1 fuel st st' h
  rw [hv] at e
  obtain rfl := Except.ok.inj e
  have hinc := increasing fl ops ho t lo hi h0 hlt h1 fuel st st' h
  have hb := bends fl ops ho t lo hi h0 hlt h1 fuel st st' h
  have hhead := (C28.list fl ops ho t lo hi h0 hlt h1 fuel st st' h).1
  obtain ⟨B, hB, e3, e2⟩ := split_aux fl ho h0 hlt h1 h
  have hu' : ∀ q ∈ st'.qualityList.map Prod.snd, 0 ≤ q.gain ∧ q.gain ≤ 1 ∧ 0 ≤ q.loss ∧ q.loss ≤ 1 := by
    intro q hq
    obtain ⟨e, he, rfl⟩ := List.mem_map.mp hq
    exact hu e he
  have hd : ∃ l, st'.qualityList.map Prod.snd = ops.quality (B lo) :: l := by
    rw [e3, List.map_map]
    cases hl : st'.pList with
    | nil => rw [hl] at hhead; simp at hhead
    | cons x l =>
      rw [hl] at hhead
      simp only [List.head?_cons, Option.some.injEq] at hhead
      subst hhead
      exact ⟨_, rfl⟩
  obtain ⟨l, hl⟩ := hd
  have hz' := hz _ (hB lo)
  rw [hl] at hinc hb hu' ⊢
  rcases List.eq_nil_or_concat l with rfl | ⟨m, z, rfl⟩
  · norm_num [C32.area]
  · rw [List.concat_eq_append] at hinc hb hu' ⊢
    have := area_chord m (ops.quality (B lo)) z (hinc.imp (fun h => ⟨h.1, h.2.1⟩)) (fun x y w hs => hb x y w hs)
    obtain ⟨a1, a2, a3, a4⟩ := hu' (ops.quality (B lo)) (by simp)
    obtain ⟨z1, z2, z3, z4⟩ := hu' z (by simp)
    have hl0 : (ops.quality (B lo)).loss = 0 := le_antisymm hz' a3
    rw [hl0, add_zero] at this
    have : (z.gain - (ops.quality (B lo)).gain) * z.loss ≤ 1 := by
      have g : z.gain - (ops.quality (B lo)).gain ≤ 1 := by linarith
      calc (z.gain - (ops.quality (B lo)).gain) * z.loss ≤ 1 * z.loss := mul_le_mul_of_nonneg_right g z3
        _ ≤ 1 := by linarith
    rw [List.cons_append] at *
    linarith

theorem zero_aux {A : Type} {sols : List Nat → List A → Prop} {ι : Type} {m : Nat} {V : Nat → ι → ℝ} {cells : A → Finset ι}
    {G D : ℝ} {q' : A → Quality ℝ} (e : q' = fun a => ⟨(entQ m V (cells a)).gain / G, (entQ m V (cells a)).loss / D⟩)
    {L : List A} (hb : ∀ ds' L', sols ds' L' → valueOf 0 1 q' L' ≤ valueOf 0 1 q' L) {ds1 : List Nat} {L1 : List A}
    (h1 : sols ds1 L1) (hf : ∀ a ∈ L1, ∃ x, cells a = {x}) : lossOf q' L ≤ 0 := by
  subst e
  have h := hb ds1 L1 h1
  have z := (finest_zero (m := m) (V := V) (cells := cells) hf).2
  unfold valueOf at h
  rw [(C32.scaled_aux (fun a => entQ m V (cells a)) G D L1).2, z, zero_div] at h
  linarith

/-- Ordered, non-negative data whose whole has non-zero gain and loss: after `computeQualities()`, `normalize()` and a search
that starts at 0, `computeAUC` is between 1/2 and 1. -/
theorem orderedHalf {F : Type} [FloatP F ℝ] {u : ℝ} (fl : FloatLaws F ℝ u) (v : OValues ℝ) (m n : Nat) (V : Nat → Nat → ℝ)
    (hv : OData v m n V) (hn0 : 0 < n) (hn : n ≤ 65535) (hpos : ∀ k i, k < m → i < n → 0 ≤ V k i)
    (hg : gainSeries m (Finset.Icc 0 (n - 1)) V ≠ 0) (hl : lossSeries m (Finset.Icc 0 (n - 1)) V ≠ 0) :
    ∃ q, ((OQualities.ofValues v).computeQualities >>= OQualities.normalize) = .ok ⟨some v, some q⟩ ∧
      ∀ (t lo hi : F), (FloatP.toK lo : ℝ) = 0 → (FloatP.toK lo : ℝ) < FloatP.toK hi → (FloatP.toK hi : ℝ) ≤ 1 →
        ∀ fuel st st', computeBestPartitions (oOps (F := F) q) false fuel t lo hi st = .ok st' →
          ∃ a : ℝ, computeAUC id st' = .ok a ∧ 1 / 2 ≤ a ∧ a ≤ 1 := by
  obtain ⟨q, e, hq⟩ := oq_object hv hn hpos
  obtain ⟨q', e', hq'⟩ := oqNormalize_spec hq hn0
  refine ⟨q', by rw [e]; exact oNormalize_object hv.osize hn0 e', ?_⟩
  intro t lo hi h0 hlt h1 fuel st st' h
  have ho : IsPartitioner (oOps (F := F) q') := .ordered q' n _ hq'
  refine half fl _ ho t lo hi h0.ge hlt h1 fuel st st' h (fun x hx => ?_) (fun X hX => ?_)
  · obtain ⟨p, P, hP, hQ⟩ := C32.best_aux fl ho h0.ge hlt h1 h x hx
    obtain ⟨P', ds, L, e1, _, e3, _, e5⟩ := oBest_lex hq' p
    obtain rfl : P = P' := Except.ok.inj (hP.symm.trans e1)
    rw [hQ, show (oOps (F := F) q').quality P = P.quality from rfl, e3]
    exact C32.square_aux (cells := oCells) (w := (0, n - 1)) (tiles_cuts (oSol_tiles e5.mem 0 rfl (by omega)) hn0)
      (by simp [oCells]) (nonneg_oCells hpos (by omega)) rfl
  · obtain ⟨P', ds, L, e1, _, e3, _, e5⟩ := oBest_lex hq' lo
    obtain rfl : X = P' := Except.ok.inj (hX.symm.trans e1)
    rw [show (oOps (F := F) q').quality X = X.quality from rfl, e3]
    rw [show (wGain lo : ℝ) = 0 from h0, show (wLoss lo : ℝ) = 1 from fl.oneSub_zero lo h0] at e5
    obtain ⟨ds1, s1⟩ := tiles_oSol (singles_tiles n 0 (by omega))
    refine zero_aux (cells := oCells) (G := (entQ m V (oCells (0, n - 1))).gain) (D := (entQ m V (oCells (0, n - 1))).loss)
      (ds1 := ds1) rfl (fun ds' L' hs => (e5.best ds' L' hs).value) s1 (fun I hI => ?_)
    obtain ⟨i, _, rfl⟩ := List.mem_map.mp hI
    exact ⟨i, by simp [oCells]⟩

/-- Hierarchical: the same if the root has the highest number (see C12). -/
theorem hierarchicalHalf {F : Type} [FloatP F ℝ] {u : ℝ} (fl : FloatLaws F ℝ u) (leaves : Nat) (parents : List Int)
    (v : HValues ℝ) (hmd : RightMeta leaves parents v.md) (hleaf : leaves < parents.length)
    (hroot : v.md.root = parents.length - 1) (m : Nat) (V : Nat → Nat → ℝ)
    (hv : HData v m leaves V) (hpos : ∀ k h, k < m → h < leaves → 0 ≤ V k h)
    (hg : gainSeries m (Finset.range leaves) V ≠ 0) (hl : lossSeries m (Finset.range leaves) V ≠ 0) :
    ∃ q, ((HQualities.ofValues v).computeQualities >>= HQualities.normalize) = .ok ⟨some v, some q, v.md⟩ ∧
      ∀ (t lo hi : F), (FloatP.toK lo : ℝ) = 0 → (FloatP.toK lo : ℝ) < FloatP.toK hi → (FloatP.toK hi : ℝ) ≤ 1 →
        ∀ fuel st st', computeBestPartitions (hOps (F := F) q v.md) false fuel t lo hi st = .ok st' →
          ∃ a : ℝ, computeAUC id st' = .ok a ∧ 1 / 2 ≤ a ∧ a ≤ 1 := by
  obtain ⟨q, e, hq⟩ := hq_object hmd hleaf hv hpos
  obtain ⟨q', e', hq'⟩ := hqNormalize_spec hq hmd.tree.rootLt
  have hq' := hq'.congr (f := _) (g := fun h => ⟨(entQ m V (leavesUnder leaves parents h)).gain /
      (entQ m V (leavesUnder leaves parents v.md.root)).gain, (entQ m V (leavesUnder leaves parents h)).loss /
      (entQ m V (leavesUnder leaves parents v.md.root)).loss⟩)
    (fun x hx => by unfold nDiv; rw [if_neg (by omega)]; rfl)
  refine ⟨q', by rw [e]; exact hNormalize_object e', ?_⟩
  intro t lo hi h0 hlt h1 fuel st st' h
  have ho : IsPartitioner (hOps (F := F) q' v.md) := .hierarchical leaves parents v.md q' _ hmd hleaf hq'
  refine half fl _ ho t lo hi h0.ge hlt h1 fuel st st' h (fun x hx => ?_) (fun X hX => ?_)
  · obtain ⟨p, P, hP, hQ⟩ := C32.best_aux fl ho h0.ge hlt h1 h x hx
    obtain ⟨P', ds, L, e1, _, e3, _, e5, _⟩ := hBest_first hmd hleaf hq' p
    obtain rfl : P = P' := Except.ok.inj (hP.symm.trans e1)
    rw [hQ, show (hOps (F := F) q' v.md).quality P = P.quality from rfl, e3]
    exact C32.square_aux (cells := leavesUnder leaves parents) (w := v.md.root)
      (leafCover_cuts hmd.tree (hSol_leafCover hmd e5.mem)) (leaves_nonempty hmd.tree hmd.tree.rootLt) (nonneg_hCells hpos) rfl
  · obtain ⟨P', L, e1, e2, _, e4, e5⟩ := C19.optimal leaves parents v.md hmd hleaf q' _ hq' lo
    obtain rfl : X = P' := Except.ok.inj (hX.symm.trans e1)
    rw [show (hOps (F := F) q' v.md).quality X = X.quality from rfl, e4]
    rw [h0, fl.oneSub_zero lo h0] at e5
    refine zero_aux (sols := fun _ L => LeafCover leaves parents L) (cells := leavesUnder leaves parents)
      (G := (entQ m V (leavesUnder leaves parents v.md.root)).gain)
      (D := (entQ m V (leavesUnder leaves parents v.md.root)).loss)
      (ds1 := []) rfl (fun ds' L' hs => (e5 L' hs).1) (leaves_cover hmd.tree) (fun h hh => ?_)
    exact ⟨h, leavesUnder_leaf hmd.tree (List.mem_range.mp hh)⟩

/-- Spatiotemporal: the same if the root has the highest number. -/
theorem spatiotemporalHalf {F : Type} [FloatP F ℝ] {u : ℝ} (fl : FloatLaws F ℝ u) (leaves : Nat) (parents : List Int)
    (v : DValues ℝ) (hmd : RightMeta leaves parents v.md) (hleaf : leaves < parents.length)
    (hroot : v.md.root = parents.length - 1) (m n : Nat) (hn0 : 0 < n) (hn : n ≤ 65535)
    (hb : leaves * n < 2147483648) (V : Nat → Nat × Nat → ℝ) (hv : DData v m leaves n V)
    (hpos : ∀ k h x, k < m → h < leaves → x < n → 0 ≤ V k (h, x))
    (hg : gainSeries m (Finset.range leaves ×ˢ Finset.Icc 0 (n - 1)) V ≠ 0)
    (hl : lossSeries m (Finset.range leaves ×ˢ Finset.Icc 0 (n - 1)) V ≠ 0) :
    ∃ q, ((DQualities.ofValues v).computeQualities >>= DQualities.normalize) = .ok ⟨some v, some q, v.md⟩ ∧
      ∀ (t lo hi : F), (FloatP.toK lo : ℝ) = 0 → (FloatP.toK lo : ℝ) < FloatP.toK hi → (FloatP.toK hi : ℝ) ≤ 1 →
        ∀ fuel st st', computeBestPartitions (dOps (F := F) q v.md) false fuel t lo hi st = .ok st' →
          ∃ a : ℝ, computeAUC id st' = .ok a ∧ 1 / 2 ≤ a ∧ a ≤ 1 := by
  obtain ⟨q, e, hq⟩ := dq_object hmd hleaf hn hb hv hpos
  obtain ⟨q', e', hq'⟩ := dqNormalize_spec hq hmd.tree.rootLt hmd.hsize hn0 hn
  have hq' := hq'.congr (g := fun h i j => ⟨(entQ m V (dCells leaves parents ⟨h, i, j⟩)).gain /
      (entQ m V (dCells leaves parents ⟨v.md.root, 0, n - 1⟩)).gain, (entQ m V (dCells leaves parents ⟨h, i, j⟩)).loss /
      (entQ m V (dCells leaves parents ⟨v.md.root, 0, n - 1⟩)).loss⟩)
    (fun x i j hx _ _ => by unfold nDiv; rw [if_neg (by omega)]; rfl)
  refine ⟨q', by rw [e]; exact dNormalize_object hv.osize hn0 e', ?_⟩
  intro t lo hi h0 hlt h1 fuel st st' h
  have ho : IsPartitioner (dOps (F := F) q' v.md) := .spatiotemporal leaves parents v.md n q' _ hmd hn0 hn hq'
  refine half fl _ ho t lo hi h0.ge hlt h1 fuel st st' h (fun x hx => ?_) (fun X hX => ?_)
  · obtain ⟨p, P, hP, hQ⟩ := C32.best_aux fl ho h0.ge hlt h1 h x hx
    obtain ⟨P', ds, L, e1, _, e3, _, e5⟩ := dBest_first hmd hq' hn0 hn p
    obtain rfl : P = P' := Except.ok.inj (hP.symm.trans e1)
    rw [hQ, show (dOps (F := F) q' v.md).quality P = P.quality from rfl, e3]
    exact C32.square_aux (cells := dCells leaves parents) (w := ⟨v.md.root, 0, n - 1⟩)
      (cellCover_cuts hmd.tree (dSol_cellCover hmd hn0 e5.mem) hn0)
      ((leaves_nonempty hmd.tree hmd.tree.rootLt).product (Finset.nonempty_Icc.mpr (Nat.zero_le _)))
      (nonneg_dCells hpos (by omega)) rfl
  · obtain ⟨P', ds, L, e1, _, e3, _, e5⟩ := dBest_first hmd hq' hn0 hn lo
    obtain rfl : X = P' := Except.ok.inj (hX.symm.trans e1)
    rw [show (dOps (F := F) q' v.md).quality X = X.quality from rfl, e3]
    rw [show (wGain lo : ℝ) = 0 from h0, show (wLoss lo : ℝ) = 1 from fl.oneSub_zero lo h0] at e5
    obtain ⟨ds1, L1, s1, p1⟩ := product_dSol hmd hn0 (leaves_cover hmd.tree)
      (tiling := fun _ => (List.range' 0 (n - 0)).map (fun i => (i, i))) (fun h _ => singles_tiles n 0 (by omega))
    refine zero_aux (cells := dCells leaves parents)
      (G := (entQ m V (dCells leaves parents ⟨v.md.root, 0, n - 1⟩)).gain)
      (D := (entQ m V (dCells leaves parents ⟨v.md.root, 0, n - 1⟩)).loss)
      (ds1 := ds1) rfl (fun ds' L' hs => (e5.best ds' L' hs).value) s1 (fun r hr => ?_)
    rw [p1.mem_iff, List.mem_flatMap] at hr
    obtain ⟨h, hh, hr⟩ := hr
    obtain ⟨I, hI, rfl⟩ := List.mem_map.mp hr
    obtain ⟨i, _, rfl⟩ := List.mem_map.mp hI
    exact ⟨(h, i), by simp [dCells, leavesUnder_leaf hmd.tree (List.mem_range.mp hh)]⟩

/-! ## Concrete cases -/

/-- The search on the table of C16 returns three qualities; both components grow and the curve bends. -/
example : (computeBestPartitions (oOps C16.exQ) false 10 (1 / 100 : ℚ) 0 1 PState.empty).map
    (fun st => st.qualityList.map (fun e => e.2)) = .ok [⟨0, 0⟩, ⟨2, 1⟩, ⟨6, 8⟩] := by decide +kernel

/-- A hierarchical search up to `p = 1` whose last step does not raise the gain: the strict theorem needs `hi < 1` there. -/
theorem hierarchicalFlat :
    (do let md ← mkMeta 4 [4, 4, 6, 6, 5, -1, 5]
        let st ← computeBestPartitions (hOps ([⟨0, 0⟩, ⟨0, 0⟩, ⟨0, 0⟩, ⟨0, 0⟩, ⟨1, 0⟩, ⟨1, 5⟩, ⟨0, 0⟩] : List (Quality ℚ)) md) false 10
          (1 / 100 : ℚ) 0 1 PState.empty
        return st.qualityList.map (fun e => e.2) : Res (List (Quality ℚ))) = .ok [⟨1, 0⟩, ⟨1, 5⟩] := by decide +kernel

/-! ## The hypotheses are met by concrete inputs (`Proofs/Samples.lean`) -/

example := identifies _ Sample.hIs (9 / 10) 1 _ _ (Sample.hPok _) (Sample.hPok _)
  (of_decide_eq_true (Sample.same_of (f := fun a b => decide (a.quality = b.quality)) (Sample.hPok (9 / 10)) (Sample.hPok 1) (by decide +kernel)))
example := increasing (exactLaws ℚ) _ Sample.hIs (1 / 16) 0 1 (by decide +kernel) (by decide +kernel) (by decide +kernel) 20 _ _  Sample.hRun
example := strictOrdered (exactLaws ℚ) Sample.oQ 3 _ Sample.oRep (1 / 16) 0 1 (by decide +kernel) (by decide +kernel) (by decide +kernel) 20 _ _  Sample.oRun
example := strictSpatiotemporal (exactLaws ℚ) 4 Sample.tree Sample.md Sample.right 3 (by decide) (by decide) Sample.dQ _ Sample.dRep (1 / 16) 0 1 (by decide +kernel) (by decide +kernel) (by decide +kernel) 20 _ _  Sample.dRun
example := bends (exactLaws ℚ) _ Sample.dIs (1 / 16) 0 1 (by decide +kernel) (by decide +kernel) (by decide +kernel) 20 _ _  Sample.dRun
example := orderedHalf (exactLaws ℝ) Sample.oV 2 3 _ Sample.o (by decide) (by decide) Sample.o_nonneg Sample.o_whole.1 Sample.o_whole.2
example := hierarchicalHalf (exactLaws ℝ) 4 Sample.tree Sample.hV Sample.right (by decide) Sample.root 2 _ Sample.h Sample.h_nonneg Sample.h_whole.1 Sample.h_whole.2
example := spatiotemporalHalf (exactLaws ℝ) 4 Sample.tree Sample.dV Sample.right (by decide) Sample.root 2 3 (by decide) (by decide) (by decide) _ Sample.d Sample.d_nonneg
  Sample.d_whole.1 Sample.d_whole.2

end Lp.C45
