import Verif.Proofs.RoundedLog
import Verif.Proofs.DSum
import Verif.Proofs.Ent
import Verif.Proofs.Norm
import Verif.Proofs.Data
import Verif.Props.C50
import Verif.Props.C57
import Verif.Proofs.Samples

/-!
# C58 — rounding errors of the qualities, and near-optimality from the data to the partition

The numbers of type `K` stand for real numbers (`val`); additions, subtractions, multiplications and divisions have relative error at
most `u` and the logarithms have accuracy `w` (`LogLaws`, `Spec/RoundedLog.lean`); data are not negative.  For a part with `N`
values and `m` series the computed gain and loss differ from the true entropy gain and loss (`trueQuality`) by at most
`(1+w)^3 (1+u)^(3N+m+1) - 1` times the sizes of their terms (`gainScale`, `lossScale`).  The partition returned is then optimal for
the **true** gain and loss, up to the fraction `(1+w)^3 (1+u)^k - 1` of the sizes of the terms: nothing is assumed about
the computed qualities any more (C50 measured with the computed ones).
-/

namespace Lp.C58
open Spec
open scoped BigOperators
variable {F K : Type} [LDLog K] [FloatP F K] {val : K → ℝ} {u w : ℝ}

/-- The numbers the data stand for. -/
def numbers {ι : Type} (val : K → ℝ) (V : Nat → ι → K) : Nat → ι → ℝ := fun k x => val (V k x)

/-- The computed quality `q` of the positions `s` is the true one, up to the fraction `(1+w)^3 (1+u)^(3N+m+1) - 1` of
the sizes of the terms. -/
def Accurate {ι : Type} (val : K → ℝ) (u w : ℝ) (m : Nat) (V : Nat → ι → K) (s : Finset ι) (q : Quality K) : Prop :=
  |val q.gain - gainSeries m s (numbers val V)| ≤
    ((1 + w) ^ 3 * (1 + u) ^ (3 * s.card + m + 1) - 1) * ∑ k ∈ Finset.range m, gainScale s (numbers val V k) ∧
  |val q.loss - lossSeries m s (numbers val V)| ≤
    ((1 + w) ^ 3 * (1 + u) ^ (3 * s.card + m + 1) - 1) * ∑ k ∈ Finset.range m, lossScale s (numbers val V k)

/-- `L'` beats `L`, measured with the true gain and loss of the parts (`pos` gives the positions in a part), by at most the fraction
`c` of the sizes of the terms of both. -/
def NearBest {A ι : Type} (c a b : ℝ) (m : Nat) (V : Nat → ι → ℝ) (pos : A → Finset ι) (L L' : List A) : Prop :=
  valueOf a b (fun x => trueQuality m V (pos x)) L' - valueOf a b (fun x => trueQuality m V (pos x)) L ≤
    c * ((L.map (fun x => termScale a b m V (pos x))).sum + (L'.map (fun x => termScale a b m V (pos x))).sum)

theorem near_aux {A ι : Type} {k e : Nat} (hu : 0 ≤ u) {a b : ℝ} {m : Nat} {V : Nat → ι → ℝ} {pos : A → Finset ι}
    {q : A → Quality K} {L L' : List A}
    (h : ∀ x ∈ L, QClose val (factor u w k) m V (pos x) (q x)) (h' : ∀ x ∈ L', QClose val (factor u w k) m V (pos x) (q x))
    (hq : C50.Within ((1 + u) ^ e - 1) a b (C50.exact val q) L L') :
    NearBest ((1 + w) ^ 3 * (1 + u) ^ (k + e) - 1) a b m V pos L L' := by
  have := true_near (H := (1 + u) ^ e) (q := C50.exact val q) (T := fun x => trueQuality m V (pos x))
    (G := fun x => ∑ k ∈ Finset.range m, gainScale (pos x) (V k)) (B := fun x => ∑ k ∈ Finset.range m, lossScale (pos x) (V k)) L L' (one_le_pow₀ (by linarith)) h h' hq
  unfold NearBest
  rwa [factor, mul_assoc, ← pow_add] at this

theorem accurate_aux {ι : Type} [DecidableEq ι] (laws : LogLaws val u w) (hw : w ≤ 1 / 2) {m N : Nat} {V : Nat → ι → K} {s : Finset ι}
    {q : Quality K} (hs : s.Nonempty) (hc : s.card ≤ N) (hb : N < 2147483648) (hn : (1 + u) ^ N ≤ 3 / 2)
    (hx : ∀ k < m, ∀ i ∈ s, 0 ≤ val (V k i))
    (hq : (s.card = 1 ∧ q = ⟨0, 0⟩) ∨ Measured V s (s.card : Nat) m q) :
    Accurate val u w m V s q ∧ QClose val (factor u w (3 * N + m + 1)) m (numbers val V) s q := by
  have hu := laws.unit_nonneg
  have key : QClose val (factor u w (3 * s.card + m + 1)) m (numbers val V) s q := by
    rcases hq with ⟨h1, rfl⟩ | h
    · exact qclose_single laws (factor_one hu laws.acc_nonneg _) hx h1
    · exact qclose_measured laws hw hs (le_refl _) (by omega)
        (le_trans (pow_le_pow_right₀ (by linarith) hc) hn) hx h
  have hm := factor_mono hu laws.acc_nonneg (show 3 * s.card + m + 1 ≤ 3 * N + m + 1 by omega)
  exact ⟨⟨key.1.err, key.2.err⟩, key.1.mono hm, key.2.mono hm⟩

theorem ordered_aux (laws : LogLaws val u w) (hw : w ≤ 1 / 2) (v : OValues K) (m n : Nat) (V : Nat → Nat → K) (hv : OData v m n V)
    (hn : n ≤ 65535) (hs : (1 + u) ^ n ≤ 3 / 2) (hpos : ∀ k i, k < m → i < n → 0 ≤ val (V k i)) :
    ∃ (q : UTM (Quality K)) (f : Nat → Nat → Quality K),
      (OQualities.ofValues v).computeQualities = .ok ⟨some v, some q⟩ ∧ q.Rep n f ∧
      ∀ i j, i ≤ j → j < n → Accurate val u w m V (Finset.Icc i j) (f i j) ∧
        QClose val (factor u w (3 * n + m + 1)) m (numbers val V) (Finset.Icc i j) (f i j) := by
  obtain ⟨q, f, e, h1, h2, h3⟩ := oqCompute_sum hv hn
  have cell : ∀ i j, i ≤ j → j < n → Accurate val u w m V (Finset.Icc i j) (f i j) ∧
      QClose val (factor u w (3 * n + m + 1)) m (numbers val V) (Finset.Icc i j) (f i j) := by
    intro i j hij hj
    have hc : (Finset.Icc i j).card = j + 1 - i := Nat.card_Icc i j
    refine accurate_aux laws hw ⟨i, by simp [hij]⟩ (by omega) (by omega) hs
      (fun k hk x hx => hpos k x hk (by rw [Finset.mem_Icc] at hx; omega)) ?_
    rcases Nat.lt_or_eq_of_le hij with hlt | rfl
    · right
      rw [← card_Icc i j hij]
      exact h3 i j hlt hj
    · left
      exact ⟨by rw [hc]; omega, h2 i hj⟩
  refine ⟨q, f, ?_, h1, cell⟩
  unfold OQualities.computeQualities OQualities.ofValues
  simp only [e, okBind, pureOk]

/-- Ordered data: `n` elements. -/
theorem ordered (laws : LogLaws val u w) (hw : w ≤ 1 / 2) (v : OValues K) (m n : Nat) (V : Nat → Nat → K) (hv : OData v m n V)
    (hn : n ≤ 65535) (hs : (1 + u) ^ n ≤ 3 / 2) (hpos : ∀ k i, k < m → i < n → 0 ≤ val (V k i)) :
    ∃ (q : UTM (Quality K)) (f : Nat → Nat → Quality K),
      (OQualities.ofValues v).computeQualities = .ok ⟨some v, some q⟩ ∧
      (∀ i j, i ≤ j → j < n → q.get i j = .ok (f i j) ∧ Accurate val u w m V (Finset.Icc i j) (f i j)) ∧
      ∀ p : F, ∃ (P : OPartition F K) (L : List (Nat × Nat)), oBestPartition q p = .ok P ∧ Tiles 0 n L ∧
        P.parts.map (fun x => (x.start, x.end)) = L.map (fun I => ((I.1 : Int), (I.2 : Int))) ∧
        ∀ L', Tiles 0 n L' →
          NearBest ((1 + w) ^ 3 * (1 + u) ^ (4 * n + m + 2) - 1) (val (FloatP.toK p)) (val (FloatP.toK (FloatP.oneSub p))) m
            (numbers val V) (fun I => Finset.Icc I.1 I.2) L L' := by
  obtain ⟨q, f, e, h1, cell⟩ := ordered_aux laws hw v m n V hv hn hs hpos
  refine ⟨q, f, e, fun i j hij hj => ⟨h1.get hij hj, (cell i j hij hj).1⟩, ?_⟩
  · intro p
    obtain ⟨P, L, g1, g2, g3, _, g5⟩ := C50.ordered (F := F) laws.toRoundedLaws q n f h1 p
    refine ⟨P, L, g1, g2, g3, fun L' hL' => ?_⟩
    have hk : ∀ {M : List (Nat × Nat)}, Tiles 0 n M → ∀ I ∈ M,
        QClose val (factor u w (3 * n + m + 1)) m (numbers val V) (Finset.Icc I.1 I.2) (f I.1 I.2) := by
      intro M hM I hI
      obtain ⟨_, b2, b3⟩ := hM.bounds I hI
      exact (cell I.1 I.2 b2 b3).2
    have := near_aux laws.unit_nonneg (hk g2) (hk hL') (g5 L' hL')
    rwa [show 3 * n + m + 1 + (n + 1) = 4 * n + m + 2 by omega] at this

theorem hierarchical_aux (laws : LogLaws val u w) (hw : w ≤ 1 / 2) (leaves : Nat) (parents : List Int) (v : HValues K)
    (hmd : RightMeta leaves parents v.md) (hlt : leaves < parents.length) (hb : leaves < 2147483648) (m : Nat) (V : Nat → Nat → K)
    (hv : HData v m leaves V) (hs : (1 + u) ^ leaves ≤ 3 / 2) (hpos : ∀ k i, k < m → i < leaves → 0 ≤ val (V k i)) :
    ∃ (q : List (Quality K)) (f : Nat → Quality K),
      (HQualities.ofValues v).computeQualities = .ok ⟨some v, some q, v.md⟩ ∧ VRep q parents.length f ∧
      ∀ h, h < parents.length → Accurate val u w m V (leavesUnder leaves parents h) (f h) ∧
        QClose val (factor u w (3 * leaves + m + 1)) m (numbers val V) (leavesUnder leaves parents h) (f h) := by
  obtain ⟨q, f, e, h1, h2, h3⟩ := hqCompute_sum hmd hv hlt
  have hsub : ∀ h, leavesUnder leaves parents h ⊆ Finset.range leaves := by
    intro h l hl; exact Finset.mem_range.mpr (mem_leavesUnder.mp hl).1
  have cell : ∀ h, h < parents.length → Accurate val u w m V (leavesUnder leaves parents h) (f h) ∧
      QClose val (factor u w (3 * leaves + m + 1)) m (numbers val V) (leavesUnder leaves parents h) (f h) := by
    intro h hh
    have hc := Finset.card_le_card (hsub h)
    rw [Finset.card_range] at hc
    refine accurate_aux laws hw (leaves_nonempty hmd.tree hh) hc hb hs
      (fun k hk x hx => hpos k x hk (Finset.mem_range.mp (hsub h hx))) ?_
    by_cases hl : h < leaves
    · left
      exact ⟨by rw [leavesUnder_leaf hmd.tree hl]; rfl, h2 h hl⟩
    · right
      exact h3 h hl hh
  refine ⟨q, f, ?_, h1, cell⟩
  unfold HQualities.computeQualities HQualities.ofValues
  simp only [e, okBind, pureOk]

/-- Hierarchies. -/
theorem hierarchical (laws : LogLaws val u w) (hw : w ≤ 1 / 2) (leaves : Nat) (parents : List Int) (v : HValues K)
    (hmd : RightMeta leaves parents v.md) (hlt : leaves < parents.length) (hb : leaves < 2147483648) (m : Nat) (V : Nat → Nat → K)
    (hv : HData v m leaves V) (hs : (1 + u) ^ leaves ≤ 3 / 2) (hpos : ∀ k i, k < m → i < leaves → 0 ≤ val (V k i)) :
    ∃ (q : List (Quality K)) (f : Nat → Quality K),
      (HQualities.ofValues v).computeQualities = .ok ⟨some v, some q, v.md⟩ ∧
      (∀ h, h < parents.length → q[h]? = some (f h) ∧ Accurate val u w m V (leavesUnder leaves parents h) (f h)) ∧
      ∀ p : F, ∃ (P : HPartition F K) (L : List Nat), hBestPartition q v.md p = .ok P ∧ LeafCover leaves parents L ∧
        P.parts.map (fun x => x.h) = L ∧
        ∀ L', LeafCover leaves parents L' →
          NearBest ((1 + w) ^ 3 * (1 + u) ^ (4 * leaves + m + 2) - 1) (val (FloatP.toK p)) (val (FloatP.toK (FloatP.oneSub p))) m
            (numbers val V) (leavesUnder leaves parents) L L' := by
  obtain ⟨q, f, e, h1, cell⟩ := hierarchical_aux laws hw leaves parents v hmd hlt hb m V hv hs hpos
  refine ⟨q, f, e, fun h hh => ⟨h1.2 h hh, (cell h hh).1⟩, ?_⟩
  · intro p
    obtain ⟨P, L, g1, g2, g3, _, g5⟩ := C50.hierarchical (F := F) laws.toRoundedLaws leaves parents v.md hmd hlt q f h1 p
    refine ⟨P, L, g1, g2, g3, fun L' hL' => ?_⟩
    have := near_aux laws.unit_nonneg (fun x hx => (cell x (g2.1 x hx)).2) (fun x hx => (cell x (hL'.1 x hx)).2) (g5 L' hL')
    rwa [show 3 * leaves + m + 1 + (leaves + 1) = 4 * leaves + m + 2 by omega] at this

theorem spatiotemporal_aux (laws : LogLaws val u w) (hw : w ≤ 1 / 2) (leaves : Nat) (parents : List Int) (v : DValues K)
    (hmd : RightMeta leaves parents v.md) (hlt : leaves < parents.length) (m n : Nat) (hn : n ≤ 65535)
    (hb : leaves * n < 2147483648) (V : Nat → Nat × Nat → K) (hv : DData v m leaves n V) (hs : (1 + u) ^ (leaves * n) ≤ 3 / 2)
    (hpos : ∀ k i t, k < m → i < leaves → t < n → 0 ≤ val (V k (i, t))) :
    ∃ (q : List (UTM (Quality K))) (f : Nat → Nat → Nat → Quality K),
      (DQualities.ofValues v).computeQualities = .ok ⟨some v, some q, v.md⟩ ∧ MRep q parents.length n f ∧
      ∀ h i j, h < parents.length → i ≤ j → j < n →
        Accurate val u w m V (leavesUnder leaves parents h ×ˢ Finset.Icc i j) (f h i j) ∧
        QClose val (factor u w (3 * (leaves * n) + m + 1)) m (numbers val V) (leavesUnder leaves parents h ×ˢ Finset.Icc i j) (f h i j) := by
  obtain ⟨q, f, e, h1, h2⟩ := dqCompute_sum hmd hlt hv hn hb
  have hsub : ∀ h, leavesUnder leaves parents h ⊆ Finset.range leaves := by
    intro h l hl; exact Finset.mem_range.mpr (mem_leavesUnder.mp hl).1
  have cell : ∀ h i j, h < parents.length → i ≤ j → j < n →
      Accurate val u w m V (leavesUnder leaves parents h ×ˢ Finset.Icc i j) (f h i j) ∧
      QClose val (factor u w (3 * (leaves * n) + m + 1)) m (numbers val V) (leavesUnder leaves parents h ×ˢ Finset.Icc i j) (f h i j) := by
    intro h i j hh hij hj
    have hc : (leavesUnder leaves parents h ×ˢ Finset.Icc i j).card ≤ leaves * n := by
      rw [Finset.card_product, Nat.card_Icc]
      have hc := Finset.card_le_card (hsub h)
      rw [Finset.card_range] at hc
      exact Nat.mul_le_mul hc (by omega)
    refine accurate_aux laws hw ((leaves_nonempty hmd.tree hh).product ⟨i, by simp [hij]⟩) hc hb hs ?_ ?_
    · rintro k hk ⟨x, t⟩ hx
      rw [Finset.mem_product, Finset.mem_Icc] at hx
      exact hpos k x t hk (Finset.mem_range.mp (hsub h hx.1)) (lt_of_le_of_lt hx.2.2 hj)
    · have := h2 h i j hh hij hj
      unfold DMeas at this
      split at this
      · rename_i hc
        left
        refine ⟨?_, this⟩
        rw [leavesUnder_leaf hmd.tree hc.1, hc.2]
        simp
      · right
        exact this
  refine ⟨q, f, ?_, h1, cell⟩
  unfold DQualities.computeQualities DQualities.ofValues
  simp only [e, okBind, pureOk]

/-- Hierarchy × time, against the coarse-first partitions (see C21). -/
theorem spatiotemporal (laws : LogLaws val u w) (hw : w ≤ 1 / 2) (leaves : Nat) (parents : List Int) (v : DValues K)
    (hmd : RightMeta leaves parents v.md) (hlt : leaves < parents.length) (m n : Nat) (h0 : 0 < n) (hn : n ≤ 65535)
    (hb : leaves * n < 2147483648) (V : Nat → Nat × Nat → K) (hv : DData v m leaves n V) (hs : (1 + u) ^ (leaves * n) ≤ 3 / 2)
    (hpos : ∀ k i t, k < m → i < leaves → t < n → 0 ≤ val (V k (i, t))) :
    ∃ (q : List (UTM (Quality K))) (f : Nat → Nat → Nat → Quality K),
      (DQualities.ofValues v).computeQualities = .ok ⟨some v, some q, v.md⟩ ∧
      (∀ h i j, h < parents.length → i ≤ j → j < n → mget q h i j = .ok (f h i j) ∧
        Accurate val u w m V (leavesUnder leaves parents h ×ˢ Finset.Icc i j) (f h i j)) ∧
      ∀ p : F, ∃ (P : DPartition F K) (L : List Rect), dBestPartition q v.md p = .ok P ∧ CellCover leaves parents n L ∧
        CoarseFirst parents L ∧ P.parts.map (fun x => (⟨x.h, x.start, x.end⟩ : Rect)) = L ∧
        ∀ L', CellCover leaves parents n L' → CoarseFirst parents L' →
          NearBest ((1 + w) ^ 3 * (1 + u) ^ (3 * (leaves * n) + m + 1 + leaves + n) - 1) (val (FloatP.toK p))
            (val (FloatP.toK (FloatP.oneSub p))) m (numbers val V)
            (fun r : Rect => leavesUnder leaves parents r.node ×ˢ Finset.Icc r.first r.last) L L' := by
  obtain ⟨q, f, e, h1, cell⟩ := spatiotemporal_aux laws hw leaves parents v hmd hlt m n hn hb V hv hs hpos
  refine ⟨q, f, e, fun h i j hh hij hj => ⟨h1.get hh hij hj, (cell h i j hh hij hj).1⟩, ?_⟩
  · intro p
    obtain ⟨P, L, g1, g2, gc, g3, _, g5⟩ := C50.spatiotemporal (F := F) laws.toRoundedLaws leaves parents v.md hmd n h0 hn q f h1 p
    refine ⟨P, L, g1, g2, gc, g3, fun L' hL' hf => ?_⟩
    have := near_aux laws.unit_nonneg (pos := fun r : Rect => leavesUnder leaves parents r.node ×ˢ Finset.Icc r.first r.last)
      (fun r hr => (cell r.node r.first r.last (g2.1 r hr).1 (g2.1 r hr).2.1 (g2.1 r hr).2.2).2)
      (fun r hr => (cell r.node r.first r.last (hL'.1 r hr).1 (hL'.1 r hr).2.1 (hL'.1 r hr).2.2).2) (g5 L' hL' hf)
    rwa [show 3 * (leaves * n) + m + 1 + (leaves + n) = 3 * (leaves * n) + m + 1 + leaves + n by omega] at this

/-! ## After `normalize()`

The qualities are divided by the computed gain and loss of the whole; that is, the weights `a` and `b` are divided by
them, at the cost of one more rounding. -/

theorem norm_aux {A ι : Type} (laws : LogLaws val u w) {k e : Nat} {a b : ℝ} {m : Nat} {V : Nat → ι → ℝ} {pos : A → Finset ι}
    {q : A → Quality K} {R : Quality K} (hg : val R.gain ≠ 0) (hl : val R.loss ≠ 0) {L L' : List A}
    (h : ∀ x ∈ L, QClose val (factor u w k) m V (pos x) (q x)) (h' : ∀ x ∈ L', QClose val (factor u w k) m V (pos x) (q x))
    {q' : A → Quality K} (e1 : ∀ x ∈ L, q' x = (q x).div R) (e2 : ∀ x ∈ L', q' x = (q x).div R)
    (hq : C50.Within ((1 + u) ^ e - 1) a b (C50.exact val q') L L') :
    NearBest ((1 + w) ^ 3 * (1 + u) ^ (k + 1 + e) - 1) (a / val R.gain) (b / val R.loss) m V pos L L' := by
  have hu := laws.unit_nonneg
  have step : ∀ M : List A, (∀ x ∈ M, QClose val (factor u w k) m V (pos x) (q x)) → (∀ x ∈ M, q' x = (q x).div R) → ∀ x ∈ M,
      Close (factor u w (k + 1)) (C50.exact val q' x).gain ((trueQuality m V (pos x)).gain / val R.gain)
        ((∑ k ∈ Finset.range m, gainScale (pos x) (V k)) / |val R.gain|) ∧
      Close (factor u w (k + 1)) (C50.exact val q' x).loss ((trueQuality m V (pos x)).loss / val R.loss)
        ((∑ k ∈ Finset.range m, lossScale (pos x) (V k)) / |val R.loss|) := by
    intro M hM eM x hx
    obtain ⟨c1, c2⟩ := hM x hx
    rw [← factor_succ]
    unfold C50.exact
    rw [eM x hx]
    exact ⟨c1.divBy hu (laws.div_err _ _ hg), c2.divBy hu (laws.div_err _ _ hl)⟩
  have := true_near_div (H := (1 + u) ^ e) (q := C50.exact val q') (T := fun x => trueQuality m V (pos x))
    (G := fun x => ∑ k ∈ Finset.range m, gainScale (pos x) (V k)) (B := fun x => ∑ k ∈ Finset.range m, lossScale (pos x) (V k)) L L'
    (one_le_pow₀ (by linarith)) (step L h e1) (step L' h' e2) hq
  unfold NearBest
  rwa [factor, mul_assoc, ← pow_add] at this

/-- Ordered data. -/
theorem orderedNormalized (laws : LogLaws val u w) (hw : w ≤ 1 / 2) (v : OValues K) (m n : Nat) (V : Nat → Nat → K)
    (hv : OData v m n V) (h0 : 0 < n) (hn : n ≤ 65535) (hs : (1 + u) ^ n ≤ 3 / 2) (hpos : ∀ k i, k < m → i < n → 0 ≤ val (V k i)) :
    ∃ (R : Quality K) (q' : UTM (Quality K)),
      ((OQualities.ofValues v).computeQualities >>= OQualities.normalize) = .ok ⟨some v, some q'⟩ ∧
      Accurate val u w m V (Finset.Icc 0 (n - 1)) R ∧
      (val R.gain ≠ 0 → val R.loss ≠ 0 →
        ∀ p : F, ∃ (P : OPartition F K) (L : List (Nat × Nat)), oBestPartition q' p = .ok P ∧ Tiles 0 n L ∧
          P.parts.map (fun x => (x.start, x.end)) = L.map (fun I => ((I.1 : Int), (I.2 : Int))) ∧
          ∀ L', Tiles 0 n L' →
            NearBest ((1 + w) ^ 3 * (1 + u) ^ (4 * n + m + 3) - 1) (val (FloatP.toK p) / val R.gain)
              (val (FloatP.toK (FloatP.oneSub p)) / val R.loss) m (numbers val V) (fun I => Finset.Icc I.1 I.2) L L') := by
  obtain ⟨q, f, e, h1, cell⟩ := ordered_aux laws hw v m n V hv hn hs hpos
  obtain ⟨q', e', h1'⟩ := oqNormalize_spec h1 h0
  refine ⟨f 0 (n - 1), q', ?_, (cell 0 (n - 1) (Nat.zero_le _) (by omega)).1, ?_⟩
  · rw [e]
    exact oNormalize_object hv.osize h0 e'
  · intro hg hl p
    obtain ⟨P, L, g1, g2, g3, _, g5⟩ := C50.ordered (F := F) laws.toRoundedLaws q' n _ h1' p
    refine ⟨P, L, g1, g2, g3, fun L' hL' => ?_⟩
    have hk : ∀ {M : List (Nat × Nat)}, Tiles 0 n M → ∀ I ∈ M,
        QClose val (factor u w (3 * n + m + 1)) m (numbers val V) (Finset.Icc I.1 I.2) (f I.1 I.2) := by
      intro M hM I hI
      obtain ⟨_, b2, b3⟩ := hM.bounds I hI
      exact (cell I.1 I.2 b2 b3).2
    have := norm_aux laws hg hl (hk g2) (hk hL') (fun _ _ => rfl) (fun _ _ => rfl) (g5 L' hL')
    rwa [show 3 * n + m + 1 + 1 + (n + 1) = 4 * n + m + 3 by omega] at this

/-- Hierarchies whose root has the highest number (see C12). -/
theorem hierarchicalNormalized (laws : LogLaws val u w) (hw : w ≤ 1 / 2) (leaves : Nat) (parents : List Int) (v : HValues K)
    (hmd : RightMeta leaves parents v.md) (hlt : leaves < parents.length) (hroot : v.md.root = parents.length - 1)
    (hb : leaves < 2147483648) (m : Nat) (V : Nat → Nat → K)
    (hv : HData v m leaves V) (hs : (1 + u) ^ leaves ≤ 3 / 2) (hpos : ∀ k i, k < m → i < leaves → 0 ≤ val (V k i)) :
    ∃ (R : Quality K) (q' : List (Quality K)),
      ((HQualities.ofValues v).computeQualities >>= HQualities.normalize) = .ok ⟨some v, some q', v.md⟩ ∧
      Accurate val u w m V (Finset.range leaves) R ∧
      (val R.gain ≠ 0 → val R.loss ≠ 0 →
        ∀ p : F, ∃ (P : HPartition F K) (L : List Nat), hBestPartition q' v.md p = .ok P ∧ LeafCover leaves parents L ∧
          P.parts.map (fun x => x.h) = L ∧
          ∀ L', LeafCover leaves parents L' →
            NearBest ((1 + w) ^ 3 * (1 + u) ^ (4 * leaves + m + 3) - 1) (val (FloatP.toK p) / val R.gain)
              (val (FloatP.toK (FloatP.oneSub p)) / val R.loss) m (numbers val V) (leavesUnder leaves parents) L L') := by
  obtain ⟨q, f, e, h1, cell⟩ := hierarchical_aux laws hw leaves parents v hmd hlt hb m V hv hs hpos
  have hr := hmd.tree.rootLt
  obtain ⟨q', e', h1'⟩ := hqNormalize_spec h1 hr
  have hlate : ∀ h, h < parents.length → (f h).div (nDiv (v.md.root < h) (f v.md.root)) = (f h).div (f v.md.root) := by
    intro h hh
    unfold nDiv
    rw [if_neg (by omega)]
  refine ⟨f v.md.root, q', ?_, ?_, ?_⟩
  · rw [e]
    exact hNormalize_object e'
  · rw [← leavesUnder_root hmd.tree]
    exact (cell _ hr).1
  · intro hg hl p
    obtain ⟨P, L, g1, g2, g3, _, g5⟩ := C50.hierarchical (F := F) laws.toRoundedLaws leaves parents v.md hmd hlt q' _ h1' p
    refine ⟨P, L, g1, g2, g3, fun L' hL' => ?_⟩
    have := norm_aux laws hg hl (fun x hx => (cell x (g2.1 x hx)).2) (fun x hx => (cell x (hL'.1 x hx)).2)
      (fun x hx => hlate x (g2.1 x hx)) (fun x hx => hlate x (hL'.1 x hx)) (g5 L' hL')
    rwa [show 3 * leaves + m + 1 + 1 + (leaves + 1) = 4 * leaves + m + 3 by omega] at this

/-- Hierarchy × time, root with the highest number. -/
theorem spatiotemporalNormalized (laws : LogLaws val u w) (hw : w ≤ 1 / 2) (leaves : Nat) (parents : List Int) (v : DValues K)
    (hmd : RightMeta leaves parents v.md) (hlt : leaves < parents.length) (hroot : v.md.root = parents.length - 1) (m n : Nat)
    (h0 : 0 < n) (hn : n ≤ 65535)
    (hb : leaves * n < 2147483648) (V : Nat → Nat × Nat → K) (hv : DData v m leaves n V) (hs : (1 + u) ^ (leaves * n) ≤ 3 / 2)
    (hpos : ∀ k i t, k < m → i < leaves → t < n → 0 ≤ val (V k (i, t))) :
    ∃ (R : Quality K) (q' : List (UTM (Quality K))),
      ((DQualities.ofValues v).computeQualities >>= DQualities.normalize) = .ok ⟨some v, some q', v.md⟩ ∧
      Accurate val u w m V (Finset.range leaves ×ˢ Finset.Icc 0 (n - 1)) R ∧
      (val R.gain ≠ 0 → val R.loss ≠ 0 →
        ∀ p : F, ∃ (P : DPartition F K) (L : List Rect), dBestPartition q' v.md p = .ok P ∧ CellCover leaves parents n L ∧
          CoarseFirst parents L ∧ P.parts.map (fun x => (⟨x.h, x.start, x.end⟩ : Rect)) = L ∧
          ∀ L', CellCover leaves parents n L' → CoarseFirst parents L' →
            NearBest ((1 + w) ^ 3 * (1 + u) ^ (3 * (leaves * n) + m + 2 + leaves + n) - 1) (val (FloatP.toK p) / val R.gain)
              (val (FloatP.toK (FloatP.oneSub p)) / val R.loss) m (numbers val V)
              (fun r : Rect => leavesUnder leaves parents r.node ×ˢ Finset.Icc r.first r.last) L L') := by
  obtain ⟨q, f, e, h1, cell⟩ := spatiotemporal_aux laws hw leaves parents v hmd hlt m n hn hb V hv hs hpos
  have hr := hmd.tree.rootLt
  obtain ⟨q', e', h1'⟩ := dqNormalize_spec h1 hr hmd.hsize h0 hn
  have hlate : ∀ h i j, h < parents.length →
      (f h i j).div (nDiv (v.md.root < h) (f v.md.root 0 (n - 1))) = (f h i j).div (f v.md.root 0 (n - 1)) := by
    intro h i j hh
    unfold nDiv
    rw [if_neg (by omega)]
  refine ⟨f v.md.root 0 (n - 1), q', ?_, ?_, ?_⟩
  · rw [e]
    exact dNormalize_object hv.osize h0 e'
  · rw [← leavesUnder_root hmd.tree]
    exact (cell _ 0 (n - 1) hr (Nat.zero_le _) (by omega)).1
  · intro hg hl p
    obtain ⟨P, L, g1, g2, gc, g3, _, g5⟩ := C50.spatiotemporal (F := F) laws.toRoundedLaws leaves parents v.md hmd n h0 hn q' _ h1' p
    refine ⟨P, L, g1, g2, gc, g3, fun L' hL' hf => ?_⟩
    have := norm_aux laws hg hl (pos := fun r : Rect => leavesUnder leaves parents r.node ×ˢ Finset.Icc r.first r.last)
      (q := fun r : Rect => f r.node r.first r.last)
      (fun r hr => (cell r.node r.first r.last (g2.1 r hr).1 (g2.1 r hr).2.1 (g2.1 r hr).2.2).2)
      (fun r hr => (cell r.node r.first r.last (hL'.1 r hr).1 (hL'.1 r hr).2.1 (hL'.1 r hr).2.2).2)
      (fun r hr => hlate r.node r.first r.last (g2.1 r hr).1) (fun r hr => hlate r.node r.first r.last (hL'.1 r hr).1) (g5 L' hL' hf)
    rwa [show 3 * (leaves * n) + m + 1 + 1 + (leaves + n) = 3 * (leaves * n) + m + 2 + leaves + n by omega] at this

/-! ## The x87 `long double` with logarithms in `double` -/

/-- 64-bit significands, logarithms of and in numbers with 53-bit significands; every rounding mode has at most these
errors. -/
abbrev X87 : Type := RoundedLog (truncationIn ℝ 63) (truncationIn ℝ 52)

theorem x87 : LogLaws (K := X87) RoundedLog.val (1 / 2 ^ 63) (logAccuracy (truncationIn ℝ 63) (truncationIn ℝ 52)) :=
  roundedLog_laws _ _ (by norm_num [truncationIn])

theorem x87_accuracy : logAccuracy (truncationIn ℝ 63) (truncationIn ℝ 52) ≤ 1 / 2 ^ 50 := by
  norm_num [logAccuracy, truncationIn]

/-- With that arithmetic, at most 65535 elements and at most 65535 series, the fraction is at most `2^-42`. -/
theorem longDouble (w : ℝ) (h0 : 0 ≤ w) (hw : w ≤ 1 / 2 ^ 50) (n m : Nat) (hn : n ≤ 65535) (hm : m ≤ 65535) :
    (1 + w) ^ 3 * (1 + 1 / 2 ^ 63) ^ (4 * n + m + 2) - 1 ≤ 1 / 2 ^ 42 ∧ ((1 : ℝ) + 1 / 2 ^ 63) ^ n ≤ 3 / 2 := by
  have hk : ((4 * n + m + 2 : Nat) : ℝ) ≤ 327677 := by
    have : 4 * n + m + 2 ≤ 327677 := by omega
    exact_mod_cast this
  have h1 := C50.factor (1 / 2 ^ 63 : ℝ) (4 * n + m + 2) (by positivity) (by linarith)
  have h2 : ((1 : ℝ) + 1 / 2 ^ 63) ^ (4 * n + m + 2) ≤ 1 + 1 / 2 ^ 43 := by linarith
  have h3 : (1 + w) ^ 3 ≤ 1 + 1 / 2 ^ 48 := by
    have : (1 + w) ^ 3 ≤ (1 + 1 / 2 ^ 50) ^ 3 := pow_le_pow_left₀ (by linarith) (by linarith) 3
    refine le_trans this ?_
    norm_num
  constructor
  · have := mul_le_mul h3 h2 (by positivity) (by norm_num)
    refine le_trans (sub_le_sub_right this 1) ?_
    norm_num
  · have : ((1 : ℝ) + 1 / 2 ^ 63) ^ n ≤ (1 + 1 / 2 ^ 63) ^ (4 * n + m + 2) :=
      pow_le_pow_right₀ (by norm_num) (by omega)
    refine le_trans this (le_trans h2 ?_)
    norm_num

/-- Spatiotemporal data: up to `2^25` cells. -/
theorem longDouble3 (w : ℝ) (h0 : 0 ≤ w) (hw : w ≤ 1 / 2 ^ 50) (leaves n m : Nat) (hl : 0 < leaves) (hn : 0 < n)
    (hb : leaves * n ≤ 2 ^ 25) (hm : m ≤ 65535) :
    (1 + w) ^ 3 * (1 + 1 / 2 ^ 63) ^ (3 * (leaves * n) + m + 1 + leaves + n) - 1 ≤ 1 / 2 ^ 34 ∧
    ((1 : ℝ) + 1 / 2 ^ 63) ^ (leaves * n) ≤ 3 / 2 := by
  have a1 : leaves ≤ leaves * n := Nat.le_mul_of_pos_right _ hn
  have a2 : n ≤ leaves * n := Nat.le_mul_of_pos_left _ hl
  have hk : ((3 * (leaves * n) + m + 1 + leaves + n : Nat) : ℝ) ≤ 201326592 := by
    have : 3 * (leaves * n) + m + 1 + leaves + n ≤ 201326592 := by omega
    exact_mod_cast this
  have h1 := C50.factor (1 / 2 ^ 63 : ℝ) (3 * (leaves * n) + m + 1 + leaves + n) (by positivity) (by linarith)
  have h2 : ((1 : ℝ) + 1 / 2 ^ 63) ^ (3 * (leaves * n) + m + 1 + leaves + n) ≤ 1 + 1 / 2 ^ 34 - 1 / 2 ^ 40 := by
    refine le_trans (le_add_of_sub_left_le (le_trans h1 (show _ ≤ (1 : ℝ) / 2 ^ 34 - 1 / 2 ^ 40 from ?_))) (by linarith)
    nlinarith
  have h3 : (1 + w) ^ 3 ≤ 1 + 1 / 2 ^ 48 := by
    have : (1 + w) ^ 3 ≤ (1 + 1 / 2 ^ 50) ^ 3 := pow_le_pow_left₀ (by linarith) (by linarith) 3
    refine le_trans this ?_
    norm_num
  constructor
  · have := mul_le_mul h3 h2 (by positivity) (by norm_num)
    refine le_trans (sub_le_sub_right this 1) ?_
    norm_num
  · have : ((1 : ℝ) + 1 / 2 ^ 63) ^ (leaves * n) ≤ (1 + 1 / 2 ^ 63) ^ (3 * (leaves * n) + m + 1 + leaves + n) :=
      pow_le_pow_right₀ (by norm_num) (by omega)
    refine le_trans this (le_trans h2 ?_)
    norm_num

/-- Exact arithmetic is the case `u = w = 0`: the computed qualities are the true ones. -/
theorem exactCase {ι : Type} (m : Nat) (V : Nat → ι → ℝ) (s : Finset ι) (q : Quality ℝ)
    (h : Accurate (fun x => x) 0 0 m V s q) : q = trueQuality m V s := by
  obtain ⟨h1, h2⟩ := h
  norm_num at h1 h2
  rw [sub_eq_zero] at h1 h2
  cases q
  exact Quality.mk.injEq .. ▸ ⟨h1, h2⟩

/-! ## The theorems applied -/

/-- The parameter, in the same arithmetic. -/
noncomputable instance (R D : RoundTo ℝ) : FloatP (RoundedLog R D) (RoundedLog R D) :=
  inferInstanceAs (FloatP (Rounded R) (Rounded R))

/-- Ten values `i/3`, rounded to 64 bits. -/
noncomputable def exV : Nat → X87 := fun i => RoundedLog.of _ ((i : ℝ) / 3)

theorem exV_aux (i : Nat) : 0 ≤ (exV i).val := by
  have h := (truncationIn ℝ 63).mono 0 ((i : ℝ) / 3) (by positivity)
  rw [(truncationIn ℝ 63).zero] at h
  exact h

example : ∃ (v : OValues X87) (q : UTM (Quality X87)) (f : Nat → Nat → Quality X87),
    v = (OValuesN1.ofVec (table1 10 exV)).toOValues ∧
    (OQualities.ofValues v).computeQualities = .ok ⟨some v, some q⟩ ∧
    (∀ i j, i ≤ j → j < 10 → q.get i j = .ok (f i j) ∧
      Accurate RoundedLog.val (1 / 2 ^ 63) (logAccuracy (truncationIn ℝ 63) (truncationIn ℝ 52)) 1 (fun _ => exV)
        (Finset.Icc i j) (f i j)) ∧
    ∀ p : X87, ∃ (P : OPartition X87 X87) (L : List (Nat × Nat)), oBestPartition q p = .ok P ∧ Tiles 0 10 L := by
  have h := longDouble _ x87.acc_nonneg x87_accuracy 10 1 (by decide) (by decide)
  obtain ⟨q, f, h1, h2, h3⟩ := ordered (F := X87) x87 (le_trans x87_accuracy (by norm_num)) _ 1 10 (fun _ => exV)
    (OValuesN1.ofVec_holds (O := 10) exV).data (by decide) h.2 (fun _ i _ _ => exV_aux i)
  refine ⟨_, q, f, rfl, h1, h2, fun p => ?_⟩
  obtain ⟨P, L, g1, g2, _⟩ := h3 p
  exact ⟨P, L, g1, g2⟩

example : ∃ (v : HValues X87) (q : List (Quality X87)) (f : Nat → Quality X87),
    (HQualities.ofValues v).computeQualities = .ok ⟨some v, some q, v.md⟩ ∧
    (∀ h, h < 7 → q[h]? = some (f h) ∧
      Accurate RoundedLog.val (1 / 2 ^ 63) (logAccuracy (truncationIn ℝ 63) (truncationIn ℝ 52)) 1 (fun _ => exV)
        (leavesUnder 4 [4, 4, 5, 5, 6, 6, -1] h) (f h)) ∧
    ∀ p : X87, ∃ (P : HPartition X87 X87) (L : List Nat), hBestPartition q v.md p = .ok P ∧ LeafCover 4 [4, 4, 5, 5, 6, 6, -1] L := by
  have hd := longDouble _ x87.acc_nonneg x87_accuracy 4 1 (by decide) (by decide)
  obtain ⟨md, _, r⟩ := C57.meta_aux
  have h : (⟨1, md, table1 4 exV⟩ : HValuesN1 X87).Holds 4 md exV := ⟨rfl, rfl, rfl⟩
  obtain ⟨q, f, h1, h2, h3⟩ := hierarchical (F := X87) x87 (le_trans x87_accuracy (by norm_num)) 4 [4, 4, 5, 5, 6, 6, -1] _ r
    (by decide) (by decide) 1 _ h.data hd.2 (fun _ i _ _ => exV_aux i)
  refine ⟨_, q, f, h1, h2, fun p => ?_⟩
  obtain ⟨P, L, g1, g2, _⟩ := h3 p
  exact ⟨P, L, g1, g2⟩

example : ∃ (v : DValues X87) (q : List (UTM (Quality X87))) (f : Nat → Nat → Nat → Quality X87),
    (DQualities.ofValues v).computeQualities = .ok ⟨some v, some q, v.md⟩ ∧
    (∀ h i j, h < 7 → i ≤ j → j < 2 → mget q h i j = .ok (f h i j) ∧
      Accurate RoundedLog.val (1 / 2 ^ 63) (logAccuracy (truncationIn ℝ 63) (truncationIn ℝ 52)) 1
        (fun _ x => exV (2 * x.1 + x.2)) (leavesUnder 4 [4, 4, 5, 5, 6, 6, -1] h ×ˢ Finset.Icc i j) (f h i j)) ∧
    ∀ p : X87, ∃ (P : DPartition X87 X87) (L : List Rect), dBestPartition q v.md p = .ok P ∧
      CellCover 4 [4, 4, 5, 5, 6, 6, -1] 2 L := by
  have hd := longDouble3 _ x87.acc_nonneg x87_accuracy 4 2 1 (by decide) (by decide) (by decide) (by decide)
  obtain ⟨md, _, r⟩ := C57.meta_aux
  have h : (⟨1, 2, md, table2 4 2 (fun x => exV (2 * x.1 + x.2))⟩ : DValuesN2 X87).Holds 4 2 md
      (fun x => exV (2 * x.1 + x.2)) := ⟨rfl, rfl, rfl, rfl⟩
  obtain ⟨q, f, h1, h2, h3⟩ := spatiotemporal (F := X87) x87 (le_trans x87_accuracy (by norm_num)) 4 [4, 4, 5, 5, 6, 6, -1] _ r
    (by decide) 1 2 (by decide) (by decide) (by decide) _ h.data hd.2 (fun _ i t _ _ _ => exV_aux _)
  refine ⟨_, q, f, h1, h2, fun p => ?_⟩
  obtain ⟨P, L, g1, g2, _⟩ := h3 p
  exact ⟨P, L, g1, g2⟩

/-- The values 0, 1, 1: the gain of the whole is 2, the loss is `2 log₂ (3/2)`; the computed ones are not 0. -/
noncomputable def exW : Nat → X87 := fun i => if i = 0 then 0 else 1

theorem exW_aux (i : Nat) : (exW i).val = if i = 0 then 0 else 1 := by
  unfold exW; split <;> rfl

theorem exW_nonzero_aux (R : Quality X87)
    (h : Accurate RoundedLog.val (1 / 2 ^ 63) (logAccuracy (truncationIn ℝ 63) (truncationIn ℝ 52)) 1 (fun _ => exW)
      (Finset.Icc 0 2) R) : R.gain.val ≠ 0 ∧ R.loss.val ≠ 0 := by
  have hI : (Finset.Icc 0 2 : Finset Nat) = {0, 1, 2} := by decide
  have hS : ∀ f : Nat → ℝ, ∑ i ∈ Finset.Icc 0 2, f i = f 0 + (f 1 + f 2) := by
    intro f; rw [hI]; simp
  have hc : (Finset.Icc 0 2 : Finset Nat).card = 3 := by decide
  have h2 : 1 / 2 ≤ Real.log 2 := by
    have := Real.one_sub_inv_le_log_of_pos (show (0 : ℝ) < 2 by norm_num)
    linarith
  have h2' : Real.log 2 ≤ 1 := by
    have := Real.log_le_sub_one_of_pos (show (0 : ℝ) < 2 by norm_num)
    linarith
  have hL := log2_pos
  have h3 : Real.log 2 + 1 / 3 ≤ Real.log 3 := by
    have := Real.one_sub_inv_le_log_of_pos (show (0 : ℝ) < 3 / 2 by norm_num)
    rw [Real.log_div (by norm_num) (by norm_num)] at this
    norm_num at this ⊢
    linarith
  have h3' : Real.log 3 ≤ 2 := by
    have := Real.log_le_sub_one_of_pos (show (0 : ℝ) < 3 by norm_num)
    linarith
  have hf := (longDouble _ x87.acc_nonneg x87_accuracy 2 1 (by decide) (by decide)).1
  obtain ⟨g, l⟩ := h
  rw [hc] at g l
  unfold gainSeries at g
  unfold lossSeries at l
  rw [Finset.sum_range_one, Finset.sum_range_one] at g l
  have e10 : 4 * 2 + 1 + 2 = 3 * 3 + 1 + 1 := rfl
  rw [e10] at hf
  have eg : gainOver (Finset.Icc 0 2) (numbers RoundedLog.val (fun _ => exW) 0) = 2 := by
    unfold gainOver numbers
    rw [hS, hS]
    simp only [exW_aux]
    norm_num [xlog2]
  have el : lossOver (Finset.Icc 0 2) (numbers RoundedLog.val (fun _ => exW) 0) = 2 * (Real.log 3 / Real.log 2) - 2 := by
    unfold lossOver
    rw [eg, hS, hc]
    unfold numbers
    simp only [exW_aux]
    norm_num [Real.logb]
  have sg : gainScale (Finset.Icc 0 2) (numbers RoundedLog.val (fun _ => exW) 0) = 4 / Real.log 2 + 2 := by
    unfold gainScale numbers
    rw [hS, hS]
    simp only [exW_aux]
    norm_num [scale, abs_of_pos hL]
    field_simp
    ring
  have sl : lossScale (Finset.Icc 0 2) (numbers RoundedLog.val (fun _ => exW) 0) =
      2 * (1 + Real.log 3) / Real.log 2 + (4 / Real.log 2 + 2) := by
    unfold lossScale
    rw [sg, hS, hc]
    unfold numbers
    simp only [exW_aux]
    norm_num [abs_of_pos (show 0 < Real.log 3 by linarith)]
  have i2 : 4 / Real.log 2 ≤ 8 := by rw [div_le_iff₀ hL]; linarith
  have i3 : 2 * (1 + Real.log 3) / Real.log 2 ≤ 12 := by rw [div_le_iff₀ hL]; linarith
  have i4 : 1 + 1 / 3 ≤ Real.log 3 / Real.log 2 := by rw [le_div_iff₀ hL]; linarith
  have p2 : 0 < 4 / Real.log 2 := by positivity
  have p3 : 0 < 2 * (1 + Real.log 3) / Real.log 2 := div_pos (by linarith) hL
  rw [eg, sg] at g
  rw [el, sl] at l
  constructor
  · intro h
    rw [h] at g
    have : |(0 : ℝ) - 2| = 2 := by norm_num
    rw [this] at g
    nlinarith
  · intro h
    rw [h] at l
    have : (2 * (Real.log 3 / Real.log 2) - 2) ≤ |0 - (2 * (Real.log 3 / Real.log 2) - 2)| := by
      rw [zero_sub, abs_neg]; exact le_abs_self _
    nlinarith

example : ∃ (v : OValues X87) (R : Quality X87) (q' : UTM (Quality X87)),
    v = (OValuesN1.ofVec (table1 3 exW)).toOValues ∧
    ((OQualities.ofValues v).computeQualities >>= OQualities.normalize) = .ok ⟨some v, some q'⟩ ∧
    R.gain.val ≠ 0 ∧ R.loss.val ≠ 0 ∧
    ∀ p : X87, ∃ (P : OPartition X87 X87) (L : List (Nat × Nat)), oBestPartition q' p = .ok P ∧ Tiles 0 3 L := by
  have h := longDouble _ x87.acc_nonneg x87_accuracy 3 1 (by decide) (by decide)
  obtain ⟨R, q', h1, h2, h3⟩ := orderedNormalized (F := X87) x87 (le_trans x87_accuracy (by norm_num)) _ 1 3 (fun _ => exW)
    (OValuesN1.ofVec_holds (O := 3) exW).data (by decide) (by decide) h.2 (fun _ i _ _ => by rw [exW_aux]; split <;> norm_num)
  obtain ⟨n1, n2⟩ := exW_nonzero_aux R h2
  refine ⟨_, R, q', rfl, h1, n1, n2, fun p => ?_⟩
  obtain ⟨P, L, g1, g2, _⟩ := h3 n1 n2 p
  exact ⟨P, L, g1, g2⟩

/-! ## The hypotheses are met by concrete inputs (`Proofs/Samples.lean`) -/

example := hierarchicalNormalized (F := ℝ) exactLog_laws (by norm_num) 4 Sample.tree Sample.hV Sample.right (by decide) Sample.root (by decide) 2 _ Sample.h
  (by norm_num) Sample.h_nonneg
example := spatiotemporalNormalized (F := ℝ) exactLog_laws (by norm_num) 4 Sample.tree Sample.dV Sample.right (by decide) Sample.root 2 3 (by decide) (by decide)
  (by decide) _ Sample.d (by norm_num) Sample.d_nonneg

end Lp.C58
