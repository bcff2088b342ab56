import Verif.Proofs.NaN
import Verif.Proofs.Norm
import Verif.Proofs.RBinding
import Verif.Proofs.Extreme
import Verif.Spec.Sheet
import Verif.Props.C57
import Verif.Props.C05
import Verif.Props.C06
import Verif.Props.C07
import Verif.Props.C49
import Verif.Proofs.Samples

/-!
# C59 — a whole without gain, or without loss: NaN

For every arithmetic with the IEEE laws of NaN.  If the computed gain or the computed loss of the whole is zero (or is NaN already, see C76),
`normalize()` divides by it.  Then, for every parameter, the ordered and the spatiotemporal partitioner return the single whole, the
hierarchical partitioner returns the opposite, the finest partition; the search finds nothing else, and `getP(P_OPT)` reads an
uninitialised variable; so do the functions exported to R, which always normalise.

This happens for a single slice and for all-zero data (any arithmetic), and in exact arithmetic with infinities and NaN for
exactly the data that C49 leaves out, among them homogeneous data and data with a single non-zero value per series.
-/

namespace Lp.C59
open Spec
variable {F K : Type} [LDLog K] [FloatP F K] {isNaN : K → Prop}

/-- The gain or the loss is zero. -/
def ZeroPart (w : Quality K) : Prop := (w.gain == 0) = true ∨ (w.loss == 0) = true

/-- The gain or the loss is zero, or NaN. -/
def Spoilt (isNaN : K → Prop) (w : Quality K) : Prop := ZeroPart w ∨ NaNQuality isNaN w

theorem zeroDiv_aux (nl : NaNLaws isNaN) {a w : Quality K} (hg : (a.gain == 0) = true) (hl : (a.loss == 0) = true)
    (h : Spoilt isNaN w) : NaNQuality isNaN (a.div w) := by
  rcases h with (h | h) | (h | h)
  · exact .inl (nl.zero_div_zero _ _ hg h)
  · exact .inr (nl.zero_div_zero _ _ hl h)
  · exact .inl (nl.div_right _ _ h)
  · exact .inr (nl.div_right _ _ h)

theorem selfDiv_aux (nl : NaNLaws isNaN) {w : Quality K} (h : Spoilt isNaN w) : NaNQuality isNaN (w.div w) := by
  rcases h with (h | h) | (h | h)
  · exact .inl (nl.zero_div_zero _ _ h h)
  · exact .inr (nl.zero_div_zero _ _ h h)
  · exact .inl (nl.div_right _ _ h)
  · exact .inr (nl.div_right _ _ h)

theorem late_aux (nl : NaNLaws isNaN) {a w : Quality K} (hg : (a.gain == 0) = true) (hl : (a.loss == 0) = true)
    (h : Spoilt isNaN w) (late : Prop) [Decidable late] : NaNQuality isNaN (a.div (nDiv late w)) := by
  unfold nDiv
  split
  · rcases selfDiv_aux nl h with h | h
    · exact .inl (nl.div_right _ _ h)
    · exact .inr (nl.div_right _ _ h)
  · exact zeroDiv_aux nl hg hl h

/-! ## Tables with NaN -/

/-- Ordered: a NaN in the quality of the whole gives the whole, whatever the other qualities are. -/
theorem orderedTable (nl : NaNLaws isNaN) (q : UTM (Quality K)) (n : Nat) (f : Nat → Nat → Quality K) (hq : q.Rep n f)
    (hn : 0 < n) (h : NaNQuality isNaN (f 0 (n - 1))) :
    (∀ p : F, ∃ P, oBestPartition q p = .ok P ∧
      P.parts.map (fun x => (x.start, x.end)) = [(0, ((n - 1 : Nat) : Int))] ∧ NaNQuality isNaN P.quality) ∧
    Undecided (oOps (F := F) q) := by
  constructor
  · intro p
    obtain ⟨P, e1, e2, e3, _⟩ := oBest_nan nl hq hn h p
    exact ⟨P, e1, by rw [e2]; rfl, by rw [e3]; exact add_nan nl h⟩
  · intro lo hi ha fuel t st
    obtain ⟨P, e1, e2, e3, _⟩ := oBest_nan nl hq hn h lo
    obtain ⟨P', e1', e2', _, _⟩ := oBest_nan nl hq hn h hi
    have hk : ∀ a b : OPart K, OPart.eqOp a b = true ↔ (a.start, a.end) = (b.start, b.end) := by
      intro a b; simp [OPart.eqOp]
    obtain ⟨s1, st', s2, s3, _, _, _, s4⟩ := search_nan (ops := oOps (F := F) q) nl e1 e1'
      ((allEq_iff hk _ _).mpr (by rw [e2, e2'])) ((allEq_iff hk _ _).mpr (by rw [e2, e2']))
      (by show NaNQuality isNaN P.quality; rw [e3]; exact add_nan nl h) ha.lt ha.gt ha.lo ha.hi fuel t st
    exact ⟨s1, st', s2, s3, s4⟩

/-- Spatiotemporal: the same. -/
theorem spatiotemporalTable (nl : NaNLaws isNaN) (leaves : Nat) (parents : List Int) (md : HMeta)
    (r : RightMeta leaves parents md) (q : List (UTM (Quality K))) (n : Nat) (Q : Nat → Nat → Nat → Quality K)
    (hq : MRep q parents.length n Q) (h0 : 0 < n) (hn : n ≤ 65535) (h : NaNQuality isNaN (Q md.root 0 (n - 1))) :
    (∀ p : F, ∃ P, dBestPartition q md p = .ok P ∧
      P.parts.map (fun x => (x.h, x.start, x.end)) = [(md.root, 0, n - 1)] ∧ NaNQuality isNaN P.quality) ∧
    Undecided (dOps (F := F) q md) := by
  constructor
  · intro p
    obtain ⟨P, e1, e2, e3, _⟩ := dBest_nan nl r hq h0 hn h p
    exact ⟨P, e1, by rw [e2]; rfl, by rw [e3]; exact add_nan nl h⟩
  · intro lo hi ha fuel t st
    obtain ⟨P, e1, e2, e3, _⟩ := dBest_nan nl r hq h0 hn h lo
    obtain ⟨P', e1', e2', _, _⟩ := dBest_nan nl r hq h0 hn h hi
    have hs : ∀ P P' : DPartition F K, P.parts = P'.parts → DPartition.eqOp P P' = true := by
      intro P P' e
      unfold DPartition.eqOp
      rw [e]
      simp only [ne_eq, not_true_eq_false, if_false, List.all_eq_true, List.any_eq_true]
      intro x hx
      exact ⟨x, hx, by simp [DPart.eqOp]⟩
    obtain ⟨s1, st', s2, s3, _, _, _, s4⟩ := search_nan (ops := dOps (F := F) q md) nl e1 e1'
      (hs _ _ (by rw [e2, e2'])) (hs _ _ (by rw [e2, e2']))
      (by show NaNQuality isNaN P.quality; rw [e3]; exact add_nan nl h) ha.lt ha.gt ha.lo ha.hi fuel t st
    exact ⟨s1, st', s2, s3, s4⟩

/-- Hierarchical: NaN in the qualities of the leaves gives the leaves, whatever the qualities of the other nodes are. -/
theorem hierarchicalTable (nl : NaNLaws isNaN) (leaves : Nat) (parents : List Int) (md : HMeta)
    (r : RightMeta leaves parents md) (hlt : leaves < parents.length) (h0 : 0 < leaves) (q : List (Quality K))
    (Q : Nat → Quality K) (hq : VRep q parents.length Q) (h : ∀ l, l < leaves → NaNQuality isNaN (Q l)) :
    (∀ p : F, ∃ P, hBestPartition q md p = .ok P ∧
      (P.parts.map HPart.h).Perm (List.range leaves) ∧ NaNQuality isNaN P.quality) ∧
    Undecided (hOps (F := F) q md) := by
  obtain ⟨L, hL, hP⟩ := hBest_nan (F := F) nl r hlt hq h
  have hnan : NaNQuality isNaN (sumQuality (L.map Q)) := by
    have h0' : (0 : Nat) ∈ L := hL.mem_iff.mpr (by simpa using h0)
    exact sumQuality_nan nl (List.mem_map.mpr ⟨0, h0', rfl⟩) (h 0 h0)
  constructor
  · intro p
    obtain ⟨P, e1, e2, e3, _⟩ := hP p
    refine ⟨P, e1, ?_, by rw [e3]; exact hnan⟩
    rw [e2, List.map_map]
    have : (HPart.h ∘ hPartOf md Q) = id := rfl
    rw [this, List.map_id]
    exact hL
  · intro lo hi ha fuel t st
    obtain ⟨P, e1, e2, e3, _⟩ := hP lo
    obtain ⟨P', e1', e2', _, _⟩ := hP hi
    have hk : ∀ a b : HPart K, HPart.eqOp a b = true ↔ (a.size, a.h) = (b.size, b.h) := by
      intro a b; simp [HPart.eqOp]
    obtain ⟨s1, st', s2, s3, _, _, _, s4⟩ := search_nan (ops := hOps (F := F) q md) nl e1 e1'
      ((allEq_iff hk _ _).mpr (by rw [e2, e2'])) ((allEq_iff hk _ _).mpr (by rw [e2, e2']))
      (by show NaNQuality isNaN P.quality; rw [e3]; exact hnan) ha.lt ha.gt ha.lo ha.hi fuel t st
    exact ⟨s1, st', s2, s3, s4⟩

/-! ## Data whose whole has no gain or no loss -/

/-- Ordered data. -/
theorem ordered (nl : NaNLaws isNaN) (v : OValues K) (m n : Nat) (V : Nat → Nat → K) (hv : OData v m n V) (h0 : 0 < n)
    (hn : n ≤ 65535) :
    ∃ q w, (OQualities.ofValues v).computeQualities = .ok ⟨some v, some q⟩ ∧ q.get 0 (n - 1) = .ok w ∧
      (Spoilt isNaN w → ∃ q', (⟨some v, some q⟩ : OQualities K).normalize = .ok ⟨some v, some q'⟩ ∧
        (∀ p : F, ∃ P, oBestPartition q' p = .ok P ∧
          P.parts.map (fun x => (x.start, x.end)) = [(0, ((n - 1 : Nat) : Int))] ∧ NaNQuality isNaN P.quality) ∧
        Undecided (oOps (F := F) q')) := by
  obtain ⟨q, f, e, h1, _⟩ := oqCompute_sum hv hn
  refine ⟨q, f 0 (n - 1), ?_, h1.get (Nat.zero_le _) (by omega), fun hz => ?_⟩
  · unfold OQualities.computeQualities OQualities.ofValues
    simp only [e, okBind, pureOk]
  · obtain ⟨q', e', hq'⟩ := oqNormalize_spec h1 h0
    exact ⟨q', oNormalize_object hv.osize h0 e', orderedTable nl q' n _ hq' h0 (selfDiv_aux nl hz)⟩

/-- Hierarchical data: the finest partition. -/
theorem hierarchical (nl : NaNLaws isNaN) (leaves : Nat) (parents : List Int) (v : HValues K)
    (hmd : RightMeta leaves parents v.md) (hlt : leaves < parents.length) (h0 : 0 < leaves) (m : Nat) (V : Nat → Nat → K)
    (hv : HData v m leaves V) :
    ∃ q w, (HQualities.ofValues v).computeQualities = .ok ⟨some v, some q, v.md⟩ ∧ q[v.md.root]? = some w ∧
      (Spoilt isNaN w → ∃ q', (⟨some v, some q, v.md⟩ : HQualities K).normalize = .ok ⟨some v, some q', v.md⟩ ∧
        (∀ p : F, ∃ P, hBestPartition q' v.md p = .ok P ∧
          (P.parts.map HPart.h).Perm (List.range leaves) ∧ NaNQuality isNaN P.quality) ∧
        Undecided (hOps (F := F) q' v.md)) := by
  obtain ⟨q, f, e, h1, h2, _⟩ := hqCompute_sum hmd hv hlt
  refine ⟨q, f v.md.root, ?_, h1.2 _ hmd.tree.rootLt, fun hz => ?_⟩
  · unfold HQualities.computeQualities HQualities.ofValues
    simp only [e, okBind, pureOk]
  · obtain ⟨q', e', hq'⟩ := hqNormalize_spec h1 hmd.tree.rootLt
    refine ⟨q', hNormalize_object e', hierarchicalTable nl leaves parents v.md hmd hlt h0 q' _ hq' (fun l hl => ?_)⟩
    rw [h2 l hl]
    exact late_aux nl nl.zero_eq nl.zero_eq hz _

/-- Spatiotemporal data. -/
theorem spatiotemporal (nl : NaNLaws isNaN) (leaves : Nat) (parents : List Int) (v : DValues K)
    (hmd : RightMeta leaves parents v.md) (hlt : leaves < parents.length) (m n : Nat) (h0 : 0 < n) (hn : n ≤ 65535)
    (hb : leaves * n < 2147483648) (V : Nat → Nat × Nat → K) (hv : DData v m leaves n V) :
    ∃ q w, (DQualities.ofValues v).computeQualities = .ok ⟨some v, some q, v.md⟩ ∧
      mget q v.md.root 0 (n - 1) = .ok w ∧
      (Spoilt isNaN w → ∃ q', (⟨some v, some q, v.md⟩ : DQualities K).normalize = .ok ⟨some v, some q', v.md⟩ ∧
        (∀ p : F, ∃ P, dBestPartition q' v.md p = .ok P ∧
          P.parts.map (fun x => (x.h, x.start, x.end)) = [(v.md.root, 0, n - 1)] ∧ NaNQuality isNaN P.quality) ∧
        Undecided (dOps (F := F) q' v.md)) := by
  obtain ⟨q, f, e, h1, _⟩ := dqCompute_sum hmd hlt hv hn hb
  refine ⟨q, f v.md.root 0 (n - 1), ?_, h1.get hmd.tree.rootLt (Nat.zero_le _) (by omega), fun hz => ?_⟩
  · unfold DQualities.computeQualities DQualities.ofValues
    simp only [e, okBind, pureOk]
  · obtain ⟨q', e', hq'⟩ := dqNormalize_spec h1 hmd.tree.rootLt hmd.hsize h0 hn
    refine ⟨q', dNormalize_object hv.osize h0 e',
      spatiotemporalTable nl leaves parents v.md hmd q' n _ hq' h0 hn ?_⟩
    unfold nDiv
    rw [if_neg (lt_irrefl _)]
    exact selfDiv_aux nl hz


/-! ## When the whole has no gain or no loss -/

theorem sum_aux {ι : Type} [DecidableEq ι] (zl : ZeroLaws K) {f : ι → K} {s : Finset ι} {x : K} (hf : ∀ i ∈ s, f i = 0)
    (h : SumOf f s x) : x = 0 := by
  induction h with
  | none => rfl
  | one i => exact hf i (by simp)
  | add _ _ _ ih1 ih2 =>
    rw [ih1 (fun i hi => hf i (Finset.mem_union_left _ hi)), ih2 (fun i hi => hf i (Finset.mem_union_right _ hi))]
    exact zl.add

theorem er_aux (zl : ZeroLaws K) (e : K) : entropyReduction (0 : K) e = 0 := by
  unfold entropyReduction; rw [if_neg zl.lt]

theorem measured_aux {ι : Type} [DecidableEq ι] (zl : ZeroLaws K) {V : Nat → ι → K} {s : Finset ι} {n : Int} (hn : 0 < n)
    {m : Nat} {q : Quality K} (hf : ∀ k < m, ∀ i ∈ s, V k i = 0) (h : Measured V s n m q) : q = ⟨0, 0⟩ := by
  induction h with
  | zero => rfl
  | @next k q S I _ hS hI ih =>
    rw [ih (fun k' hk' => hf k' (by omega)), sum_aux zl (hf k (by omega)) hS,
      sum_aux zl (fun i hi => by rw [hf k (by omega) i hi, er_aux zl]) hI]
    unfold divergence ln2
    rw [er_aux zl, zl.mulLog n hn, zl.divLn, zl.sub, zl.add]

/-- A single slice, in any arithmetic. -/
theorem singleSlice (v : OValues K) (m : Nat) (V : Nat → Nat → K) (hv : OData v m 1 V) :
    ∃ q, (OQualities.ofValues v).computeQualities = .ok ⟨some v, some q⟩ ∧ q.get 0 0 = .ok ⟨0, 0⟩ := by
  obtain ⟨q, f, e, h1, h2, _⟩ := C57.ordered v m 1 V hv (by omega)
  exact ⟨q, e, by rw [h1 0 0 (le_refl _) (by omega), h2 0 (by omega)]⟩

/-- All-zero ordered data, in any arithmetic. -/
theorem orderedZero (zl : ZeroLaws K) (v : OValues K) (m n : Nat) (V : Nat → Nat → K) (hv : OData v m n V) (hn : n ≤ 65535)
    (hz : ∀ k i, k < m → i < n → V k i = 0) :
    ∃ q, (OQualities.ofValues v).computeQualities = .ok ⟨some v, some q⟩ ∧
      ∀ i j, i ≤ j → j < n → q.get i j = .ok ⟨0, 0⟩ := by
  obtain ⟨q, f, e, h1, h2, h3⟩ := C57.ordered v m n V hv hn
  refine ⟨q, e, fun i j hij hj => ?_⟩
  rw [h1 i j hij hj]
  congr 1
  rcases Nat.eq_or_lt_of_le hij with rfl | hlt
  · exact h2 i hj
  · refine measured_aux zl ?_ (fun k hk x hx => hz k x hk ?_) (h3 i j hlt hj)
    · rw [Nat.card_Icc]; omega
    · have := (Finset.mem_Icc.mp hx).2; omega

/-- All-zero hierarchical data, in any arithmetic. -/
theorem hierarchicalZero (zl : ZeroLaws K) (leaves : Nat) (parents : List Int) (v : HValues K)
    (hmd : RightMeta leaves parents v.md) (hlt : leaves < parents.length) (m : Nat) (V : Nat → Nat → K)
    (hv : HData v m leaves V) (hz : ∀ k l, k < m → l < leaves → V k l = 0) :
    ∃ q, (HQualities.ofValues v).computeQualities = .ok ⟨some v, some q, v.md⟩ ∧
      ∀ h, h < parents.length → q[h]? = some ⟨0, 0⟩ := by
  obtain ⟨q, f, e, h1, h2, h3⟩ := C57.hierarchical leaves parents v hmd hlt m V hv
  refine ⟨q, e, fun h hh => ?_⟩
  rw [h1 h hh]
  congr 1
  by_cases hl : h < leaves
  · exact h2 h hl
  · refine measured_aux zl ?_ (fun k hk x hx => hz k x hk (mem_leavesUnder.mp hx).1) (h3 h (by omega) hh)
    have := (leaves_nonempty hmd.tree hh).card_pos
    omega

/-- All-zero spatiotemporal data, in any arithmetic. -/
theorem spatiotemporalZero (zl : ZeroLaws K) (leaves : Nat) (parents : List Int) (v : DValues K)
    (hmd : RightMeta leaves parents v.md) (hlt : leaves < parents.length) (m n : Nat) (hn : n ≤ 65535)
    (hb : leaves * n < 2147483648) (V : Nat → Nat × Nat → K) (hv : DData v m leaves n V)
    (hz : ∀ k l i, k < m → l < leaves → i < n → V k (l, i) = 0) :
    ∃ q, (DQualities.ofValues v).computeQualities = .ok ⟨some v, some q, v.md⟩ ∧
      ∀ h i j, h < parents.length → i ≤ j → j < n → mget q h i j = .ok ⟨0, 0⟩ := by
  obtain ⟨q, f, e, h1, h2, h3⟩ := C57.spatiotemporal leaves parents v hmd hlt m n hn hb V hv
  refine ⟨q, e, fun h i j hh hij hj => ?_⟩
  rw [h1 h i j hh hij hj]
  congr 1
  by_cases hl : h < leaves ∧ i = j
  · obtain ⟨hl, rfl⟩ := hl
    exact h2 h i hl hj
  · refine measured_aux zl ?_ (fun k hk x hx => ?_) (h3 h i j hh hij hj hl)
    · have := ((leaves_nonempty hmd.tree hh).product (Finset.nonempty_Icc.mpr hij)).card_pos
      omega
    · obtain ⟨a, b⟩ := Finset.mem_product.mp hx
      exact hz k x.1 x.2 hk (mem_leavesUnder.mp a).1 (by have := (Finset.mem_Icc.mp b).2; omega)

/-! ## Exact numbers with infinities and NaN -/

theorem numSum_aux {ι : Type} [DecidableEq ι] {f : ι → ℝ} {s : Finset ι} {x : Special ℝ}
    (h : SumOf (fun i => Special.num (f i)) s x) : x = .num (∑ i ∈ s, f i) := by
  induction h with
  | none => simp; rfl
  | one i => simp
  | add hd _ _ ih1 ih2 => rw [ih1, ih2, Finset.sum_union hd]; rfl

theorem numEr_aux (a b : ℝ) : entropyReduction (Special.num a) (.num b) = .num (entropyReduction a b) := by
  unfold entropyReduction entropy ln2
  by_cases h : 0 < a
  · have h' : (0 : Special ℝ) < .num a := by show decide (0 < a) = true; simpa using h
    rw [if_pos h', if_pos h]
    have e1 : (LDLog.log (Special.num a) : Special ℝ) = .num (Real.log a) := by
      show Special.log (.num a) = _
      rw [Special.log, if_neg (not_lt.mpr h.le), if_pos h]; rfl
    have hl : (0 : ℝ) < Real.log 2 := Real.log_pos (by norm_num)
    have e2 : (Special.num (a * Real.log a) / (LDLog.ln : Special ℝ)) = .num (a * Real.log a / Real.log 2) := by
      show Special.div (.num _) (.num (Real.log 2)) = _
      rw [Special.div, if_pos (.inr hl)]
    rw [e1]
    show Special.num (a * Real.log a) / (LDLog.ln : Special ℝ) - _ = _
    rw [e2]
    rfl
  · have h' : ¬ (0 : Special ℝ) < .num a := by
      intro h'
      have : decide (0 < a) = true := h'
      exact h (by simpa using this)
    rw [if_neg h', if_neg h]
    rfl

theorem numDiv_aux (n : Int) (a b : ℝ) : divergence n (Special.num a) (.num b) = .num (divergence n a b) := by
  unfold divergence ln2
  rw [numEr_aux]
  have hl : (0 : ℝ) < Real.log 2 := Real.log_pos (by norm_num)
  have e2 : (Special.num (a * Real.log n) / (LDLog.ln : Special ℝ)) = .num (a * Real.log n / Real.log 2) := by
    show Special.div (.num _) (.num (Real.log 2)) = _
    rw [Special.div, if_pos (.inr hl)]
  show Special.num (a * Real.log n) / (LDLog.ln : Special ℝ) - _ = _
  rw [e2]
  rfl

/-- On exact numbers nothing special happens: the measure is the exact one. -/
theorem numMeasured_aux {ι : Type} [DecidableEq ι] {V : Nat → ι → ℝ} {s : Finset ι} {m : Nat} {q : Quality (Special ℝ)}
    (hf : ∀ k < m, ∀ i ∈ s, 0 ≤ V k i) (h : Measured (fun k i => Special.num (V k i)) s s.card m q) :
    q = ⟨.num (gainSeries m s V), .num (lossSeries m s V)⟩ := by
  generalize hn : (s.card : Int) = n at h
  induction h with
  | zero => simp [gainSeries, lossSeries]; rfl
  | @next k q S I _ hS hI ih =>
    rw [ih (fun k' hk' => hf k' (by omega)), numSum_aux hS]
    have e : (fun i => entropyReduction (Special.num (V k i)) 0) = fun i => Special.num (er0 (V k i)) := by
      funext i; exact numEr_aux _ 0
    rw [e] at hI
    rw [numSum_aux hI, numEr_aux, numDiv_aux]
    have hv : ∀ x ∈ s, 0 ≤ V k x := hf k (by omega)
    have h1 := gain_code hv
    have h2 : divergence n (∑ x ∈ s, V k x) (∑ x ∈ s, er0 (V k x)) = lossOver s (V k) := by
      rw [divergence_eq, h1, ← hn]
      unfold lossOver
      norm_num
    rw [h1, h2]
    unfold gainSeries lossSeries
    rw [Finset.sum_range_succ, Finset.sum_range_succ]
    rfl


theorem numZero_aux {w : Quality (Special ℝ)} {a b : ℝ} (h : w = ⟨.num a, .num b⟩) (hz : a = 0 ∨ b = 0) : ZeroPart w := by
  subst h
  rcases hz with rfl | rfl
  · left
    show decide ((0 : ℝ) = 0) = true
    simp
  · right
    show decide ((0 : ℝ) = 0) = true
    simp

theorem singleton_aux {ι : Type} {m : Nat} {V : Nat → ι → ℝ} {s : Finset ι} {x : ι} (hs : s = {x})
    (hv : ∀ k < m, ∀ i ∈ s, 0 ≤ V k i) : (⟨0, 0⟩ : Quality (Special ℝ)) = ⟨.num (gainSeries m s V), .num (lossSeries m s V)⟩ := by
  rw [(gainSeries_zero_iff hv).mpr, (lossSeries_zero_iff hv).mpr]
  · rfl
  · subst hs; intro k _ a ha b hb; simp at ha hb; rw [ha, hb]
  · subst hs; intro k _ a ha b hb; simp at ha hb; rw [ha, hb]; simp

/-- Ordered data of exact numbers: the whole has the exact gain and loss. -/
theorem orderedExact (v : OValues (Special ℝ)) (m n : Nat) (V : Nat → Nat → ℝ) (hp : ∀ k i, k < m → i < n → 0 ≤ V k i)
    (hv : OData v m n (fun k i => .num (V k i))) (h0 : 0 < n) (hn : n ≤ 65535) :
    ∃ q, (OQualities.ofValues v).computeQualities = .ok ⟨some v, some q⟩ ∧
      q.get 0 (n - 1) = .ok ⟨.num (gainSeries m (Finset.Icc 0 (n - 1)) V), .num (lossSeries m (Finset.Icc 0 (n - 1)) V)⟩ := by
  obtain ⟨q, f, e, h1, h2, h3⟩ := C57.ordered v m n _ hv hn
  refine ⟨q, e, ?_⟩
  have hs : ∀ k < m, ∀ i ∈ Finset.Icc 0 (n - 1), 0 ≤ V k i :=
    fun k hk i hi => hp k i hk (by have := (Finset.mem_Icc.mp hi).2; omega)
  rw [h1 _ _ (Nat.zero_le _) (by omega)]
  congr 1
  by_cases h : 0 < n - 1
  · exact numMeasured_aux hs (h3 0 (n - 1) h (by omega))
  · have e0 : n - 1 = 0 := by omega
    rw [e0] at hs ⊢
    rw [h2 0 h0]
    exact singleton_aux (x := 0) (by simp) hs

/-- Hierarchical data of exact numbers. -/
theorem hierarchicalExact (leaves : Nat) (parents : List Int) (v : HValues (Special ℝ))
    (hmd : RightMeta leaves parents v.md) (hlt : leaves < parents.length) (m : Nat) (V : Nat → Nat → ℝ)
    (hp : ∀ k l, k < m → l < leaves → 0 ≤ V k l) (hv : HData v m leaves (fun k l => .num (V k l))) :
    ∃ q, (HQualities.ofValues v).computeQualities = .ok ⟨some v, some q, v.md⟩ ∧
      q[v.md.root]? = some ⟨.num (gainSeries m (Finset.range leaves) V), .num (lossSeries m (Finset.range leaves) V)⟩ := by
  obtain ⟨q, f, e, h1, h2, h3⟩ := C57.hierarchical leaves parents v hmd hlt m _ hv
  refine ⟨q, e, ?_⟩
  have hs : ∀ k < m, ∀ i ∈ Finset.range leaves, 0 ≤ V k i := fun k hk i hi => hp k i hk (Finset.mem_range.mp hi)
  rw [h1 _ hmd.tree.rootLt]
  congr 1
  by_cases h : v.md.root < leaves
  · rw [h2 _ h]
    refine singleton_aux (x := v.md.root) ?_ hs
    rw [← leavesUnder_root hmd.tree, leavesUnder_leaf hmd.tree h]
  · have := h3 _ (not_lt.mp h) hmd.tree.rootLt
    rw [leavesUnder_root hmd.tree] at this
    exact numMeasured_aux hs this

/-- Spatiotemporal data of exact numbers. -/
theorem spatiotemporalExact (leaves : Nat) (parents : List Int) (v : DValues (Special ℝ))
    (hmd : RightMeta leaves parents v.md) (hlt : leaves < parents.length) (m n : Nat) (h0 : 0 < n) (hn : n ≤ 65535)
    (hb : leaves * n < 2147483648) (V : Nat → Nat × Nat → ℝ)
    (hp : ∀ k l i, k < m → l < leaves → i < n → 0 ≤ V k (l, i)) (hv : DData v m leaves n (fun k x => .num (V k x))) :
    ∃ q, (DQualities.ofValues v).computeQualities = .ok ⟨some v, some q, v.md⟩ ∧
      mget q v.md.root 0 (n - 1) = .ok ⟨.num (gainSeries m (Finset.range leaves ×ˢ Finset.Icc 0 (n - 1)) V),
        .num (lossSeries m (Finset.range leaves ×ˢ Finset.Icc 0 (n - 1)) V)⟩ := by
  obtain ⟨q, f, e, h1, h2, h3⟩ := C57.spatiotemporal leaves parents v hmd hlt m n hn hb _ hv
  refine ⟨q, e, ?_⟩
  have hs : ∀ k < m, ∀ i ∈ Finset.range leaves ×ˢ Finset.Icc 0 (n - 1), 0 ≤ V k i := by
    intro k hk x hx
    obtain ⟨a, b⟩ := Finset.mem_product.mp hx
    exact hp k x.1 x.2 hk (Finset.mem_range.mp a) (by have := (Finset.mem_Icc.mp b).2; omega)
  rw [h1 _ _ _ hmd.tree.rootLt (Nat.zero_le _) (by omega)]
  congr 1
  by_cases h : v.md.root < leaves ∧ 0 = n - 1
  · rw [← h.2] at hs ⊢
    rw [h2 _ _ h.1 h0]
    refine singleton_aux (x := (v.md.root, 0)) ?_ hs
    rw [← leavesUnder_root hmd.tree, leavesUnder_leaf hmd.tree h.1]
    simp
  · have := h3 _ 0 (n - 1) hmd.tree.rootLt (Nat.zero_le _) (by omega) h
    rw [leavesUnder_root hmd.tree] at this
    exact numMeasured_aux hs this

/-! ## The functions exported to R -/

theorem search_aux {P T R : Type} {ops : PartOps F K P T} (h : Undecided ops)
    (ha : Apart (FloatP.zero : F) (FloatP.oneSub FloatP.zero)) (row : T → R) (fuel : Nat) (randMax : K) (rnd : K → K) (t : F) :
    rSearch ops row false (fuel + 1) randMax rnd t = .error .uninit ∧
    rSearch ops row true (fuel + 1) randMax rnd t = .error .badIterator := by
  obtain ⟨h1, st', h2, _, h3⟩ := h _ _ ha fuel t PState.empty
  unfold rSearch
  constructor
  · rw [h2]
    simp only [okBind]
    rw [h3]
    rfl
  · rw [h1]; rfl

theorem oR_aux (nl : NaNLaws isNaN) {d0 d1 d2 : Nat} {f : Nat × Nat × Nat → K} (h0 : 0 < d0) (h1 : 0 < d1)
    (h2 : 0 < d2) (h2' : d2 ≤ 65535) (hF : d0 * d1 < 2 ^ 32) (ha : Apart (FloatP.zero : F) (FloatP.oneSub FloatP.zero)) (fuel : Nat) (randMax : K)
    (rnd : K → K) (t : F)
    (hz : ∀ v : OValues K, OData v (d0 * d1) d2 (fun k o => f (k / d1, k % d1, o)) → ∃ q w,
      (OQualities.ofValues v).computeQualities = .ok ⟨some v, some q⟩ ∧ q.get 0 (d2 - 1) = .ok w ∧ Spoilt isNaN w) :
    oaggregate false (fuel + 1) randMax rnd (rArray d0 d1 d2 f) t = .error .uninit := by
  have hv : OData (OValuesN3.ofVec (table3 d0 d1 d2 f)).toOValues (d0 * d1) d2 (fun k o => f (k / d1, k % d1, o)) :=
    (OValuesN3.ofVec_holds h0 h1 hF f).data
  obtain ⟨q0, w0, e, e0, e1⟩ := ordered (F := F) nl _ _ _ _ hv h2 h2'
  obtain ⟨q, w, g, g0, g1⟩ := hz _ hv
  rw [e] at g
  obtain rfl : q0 = q := by simpa using Except.ok.inj g
  rw [e0] at g0
  obtain rfl := Except.ok.inj g0
  obtain ⟨q', n1, _, n3⟩ := e1 g1
  unfold oaggregate
  rw [convertToMicroModel_rArray]
  simp only [okBind]
  rw [e]
  simp only [okBind]
  rw [n1]
  exact (search_aux n3 ha _ fuel randMax rnd t).1

theorem hR_aux (nl : NaNLaws isNaN) {d0 d1 d2 : Nat} {f : Nat × Nat × Nat → K} {h : List Int} (h0 : 0 < d0) (h1 : 0 < d1) (hF : d1 * d2 < 2 ^ 32)
    (tree : IsTree d0 (h.map (· - 1)) ((h.map (· - 1)).length - 1)) (near : NearestFirst d0 (h.map (· - 1)))
    (hlt : d0 < (h.map (· - 1)).length)
    (ha : Apart (FloatP.zero : F) (FloatP.oneSub FloatP.zero)) (fuel : Nat) (randMax : K) (rnd : K → K) (t : F)
    (hz : ∀ v : HValues K, RightMeta d0 (h.map (· - 1)) v.md → HData v (d1 * d2) d0 (fun k l => f (l, k / d2, k % d2)) →
      ∃ q w, (HQualities.ofValues v).computeQualities = .ok ⟨some v, some q, v.md⟩ ∧ q[v.md.root]? = some w ∧
        Spoilt isNaN w) :
    haggregate false (fuel + 1) randMax rnd (rArray d0 d1 d2 f) h t = .error .uninit := by
  generalize hp : h.map (· - 1) = parents at tree near hlt hz
  obtain ⟨md, m1, m2, m3⟩ := C03.right d0 parents _ tree near
  have hc : ∃ c, HValuesN3.ofVec (table3 d0 d1 d2 f) parents = .ok c := by
    unfold HValuesN3.ofVec
    rw [SIZE1_table3, m1]
    exact ⟨_, rfl⟩
  obtain ⟨c, hc⟩ := hc
  obtain ⟨md', m1', hold⟩ := HValuesN3.ofVec_holds h0 h1 hF f hc
  obtain rfl : md = md' := Except.ok.inj (m1.symm.trans m1')
  have hmd : RightMeta d0 parents c.toHValues.md := by
    show RightMeta d0 parents c.md
    rw [hold.md]; exact m3
  have hv : HData c.toHValues (d1 * d2) d0 (fun k l => f (l, k / d2, k % d2)) := hold.data
  obtain ⟨q0, w0, e, e0, e1⟩ := hierarchical (F := F) nl d0 parents _ hmd hlt h0 _ _ hv
  obtain ⟨q, w, g, g0, g1⟩ := hz _ hmd hv
  rw [e] at g
  obtain rfl : q0 = q := by simpa using Except.ok.inj g
  rw [e0] at g0
  obtain rfl := Option.some.inj g0
  obtain ⟨q', n1, _, n3⟩ := e1 g1
  unfold haggregate haggregateIn
  rw [convertToMicroModel_rArray, convertToHierarchy_map, hp]
  simp only [okBind]
  rw [hc]
  simp only [okBind]
  rw [e]
  simp only [okBind]
  rw [n1]
  exact (search_aux n3 ha _ fuel randMax rnd t).1

theorem dR_aux (nl : NaNLaws isNaN) {d0 d1 d2 : Nat} {f : Nat × Nat × Nat → K} {h : List Int} (h0 : 0 < d0) (h1 : 0 < d1)
    (h2 : 0 < d2) (h2' : d2 ≤ 65535) (hb : d0 * d2 < 2147483648)
    (tree : IsTree d0 (h.map (· - 1)) ((h.map (· - 1)).length - 1)) (near : NearestFirst d0 (h.map (· - 1)))
    (hlt : d0 < (h.map (· - 1)).length)
    (ha : Apart (FloatP.zero : F) (FloatP.oneSub FloatP.zero)) (fuel : Nat) (randMax : K) (rnd : K → K) (t : F)
    (hz : ∀ v : DValues K, RightMeta d0 (h.map (· - 1)) v.md → DData v d1 d0 d2 (fun k x => f (x.1, k, x.2)) →
      ∃ q w, (DQualities.ofValues v).computeQualities = .ok ⟨some v, some q, v.md⟩ ∧
        mget q v.md.root 0 (d2 - 1) = .ok w ∧ Spoilt isNaN w) :
    daggregate false (fuel + 1) randMax rnd (rArray d0 d1 d2 f) h t = .error .uninit := by
  generalize hp : h.map (· - 1) = parents at tree near hlt hz
  obtain ⟨md, m1, m2, m3⟩ := C03.right d0 parents _ tree near
  have hc : ∃ c, DValuesN3.ofVec (table3 d0 d1 d2 f) parents = .ok c := by
    unfold DValuesN3.ofVec
    rw [SIZE1_table3, m1]
    exact ⟨_, rfl⟩
  obtain ⟨c, hc⟩ := hc
  obtain ⟨md', m1', hold⟩ := DValuesN3.ofVec_holds h0 h1 f hc
  obtain rfl : md = md' := Except.ok.inj (m1.symm.trans m1')
  have hmd : RightMeta d0 parents c.toDValues.md := by
    show RightMeta d0 parents c.md
    rw [hold.md]; exact m3
  have hv : DData c.toDValues d1 d0 d2 (fun k x => f (x.1, k, x.2)) := hold.data
  obtain ⟨q0, w0, e, e0, e1⟩ := spatiotemporal (F := F) nl d0 parents _ hmd hlt _ _ h2 h2' hb _ hv
  obtain ⟨q, w, g, g0, g1⟩ := hz _ hmd hv
  rw [e] at g
  obtain rfl : q0 = q := by simpa using Except.ok.inj g
  rw [e0] at g0
  obtain rfl := Except.ok.inj g0
  obtain ⟨q', n1, _, n3⟩ := e1 g1
  unfold daggregate daggregateIn
  rw [convertToMicroModel_rArray, convertToHierarchy_map, hp]
  simp only [okBind]
  rw [hc]
  simp only [okBind]
  rw [e]
  simp only [okBind]
  rw [n1]
  exact (search_aux n3 ha _ fuel randMax rnd t).1

theorem zeroPart_aux (nl : NaNLaws isNaN) : Spoilt isNaN (⟨0, 0⟩ : Quality K) := .inl (.inl nl.zero_eq)

/-- All three functions on an array of zeros, in any arithmetic. -/
theorem zeroArray (nl : NaNLaws isNaN) (zl : ZeroLaws K) (d0 d1 d2 : Nat) (h0 : 0 < d0) (h1 : 0 < d1) (h2 : 0 < d2)
    (h2' : d2 ≤ 65535) (hF : d0 * d1 < 2 ^ 32) (hF' : d1 * d2 < 2 ^ 32) (ha : Apart (FloatP.zero : F) (FloatP.oneSub FloatP.zero)) (fuel : Nat) (randMax : K)
    (rnd : K → K) (t : F) :
    oaggregate false (fuel + 1) randMax rnd (rArray d0 d1 d2 (fun _ => (0 : K))) t = .error .uninit ∧
    ∀ h : List Int, IsTree d0 (h.map (· - 1)) ((h.map (· - 1)).length - 1) → NearestFirst d0 (h.map (· - 1)) →
      d0 < (h.map (· - 1)).length →
      haggregate false (fuel + 1) randMax rnd (rArray d0 d1 d2 (fun _ => (0 : K))) h t = .error .uninit ∧
      (d0 * d2 < 2147483648 →
        daggregate false (fuel + 1) randMax rnd (rArray d0 d1 d2 (fun _ => (0 : K))) h t = .error .uninit) := by
  refine ⟨oR_aux nl h0 h1 h2 h2' hF ha fuel randMax rnd t (fun v hv => ?_), fun h tree near hlt =>
    ⟨hR_aux nl h0 h1 hF' tree near hlt ha fuel randMax rnd t (fun v hmd hv => ?_), fun hb =>
      dR_aux nl h0 h1 h2 h2' hb tree near hlt ha fuel randMax rnd t (fun v hmd hv => ?_)⟩⟩
  · obtain ⟨q, e, hq⟩ := orderedZero zl v _ _ _ hv h2' (fun _ _ _ _ => rfl)
    exact ⟨q, _, e, hq 0 (d2 - 1) (Nat.zero_le _) (by omega), zeroPart_aux nl⟩
  · obtain ⟨q, e, hq⟩ := hierarchicalZero zl d0 _ v hmd hlt _ _ hv (fun _ _ _ _ => rfl)
    exact ⟨q, _, e, hq _ hmd.tree.rootLt, zeroPart_aux nl⟩
  · obtain ⟨q, e, hq⟩ := spatiotemporalZero zl d0 _ v hmd hlt _ _ h2' hb _ hv (fun _ _ _ _ _ _ => rfl)
    exact ⟨q, _, e, hq _ 0 (d2 - 1) hmd.tree.rootLt (Nat.zero_le _) (by omega), zeroPart_aux nl⟩

/-- `oaggregate` on an array with a single slice, whatever its values and in any arithmetic. -/
theorem singleSliceArray (nl : NaNLaws isNaN) (d0 d1 : Nat) (f : Nat × Nat × Nat → K) (h0 : 0 < d0) (h1 : 0 < d1) (hF : d0 * d1 < 2 ^ 32)
    (ha : Apart (FloatP.zero : F) (FloatP.oneSub FloatP.zero)) (fuel : Nat) (randMax : K) (rnd : K → K) (t : F) :
    oaggregate false (fuel + 1) randMax rnd (rArray d0 d1 1 f) t = .error .uninit :=
  oR_aux nl h0 h1 (by omega) (by omega) hF ha fuel randMax rnd t (fun v hv => by
    obtain ⟨q, e, hq⟩ := singleSlice v _ _ hv
    exact ⟨q, _, e, hq, zeroPart_aux nl⟩)

/-- The three functions in exact arithmetic with infinities and NaN, on any data that the theorems of C49 leave out: the gain
or the loss of all the cells is zero. -/
theorem exactArray (d0 d1 d2 : Nat) (h0 : 0 < d0) (h1 : 0 < d1) (h2 : 0 < d2) (h2' : d2 ≤ 65535) (hF : d0 * d1 < 2 ^ 32) (hF' : d1 * d2 < 2 ^ 32) (fuel : Nat)
    (randMax : Special ℝ) (rnd : Special ℝ → Special ℝ) (t : Special ℝ) (f : Nat × Nat × Nat → ℝ)
    (hf : ∀ i j k, i < d0 → j < d1 → k < d2 → 0 ≤ f (i, j, k)) :
    ((gain3 d0 d1 (fun i j k => f (i, j, k)) (Finset.Icc 0 (d2 - 1)) = 0 ∨
        loss3 d0 d1 (fun i j k => f (i, j, k)) (Finset.Icc 0 (d2 - 1)) = 0) →
      oaggregate false (fuel + 1) randMax rnd (rArray d0 d1 d2 (fun x => .num (f x))) t = .error .uninit) ∧
    ∀ h : List Int, IsTree d0 (h.map (· - 1)) ((h.map (· - 1)).length - 1) → NearestFirst d0 (h.map (· - 1)) →
      d0 < (h.map (· - 1)).length →
      ((gain3 d1 d2 (fun j k l => f (l, j, k)) (Finset.range d0) = 0 ∨
          loss3 d1 d2 (fun j k l => f (l, j, k)) (Finset.range d0) = 0) →
        haggregate false (fuel + 1) randMax rnd (rArray d0 d1 d2 (fun x => .num (f x))) h t = .error .uninit) ∧
      (d0 * d2 < 2147483648 →
        (gain3 d1 1 (fun j _ (c : Nat × Nat) => f (c.1, j, c.2)) (Finset.range d0 ×ˢ Finset.Icc 0 (d2 - 1)) = 0 ∨
          loss3 d1 1 (fun j _ (c : Nat × Nat) => f (c.1, j, c.2)) (Finset.range d0 ×ˢ Finset.Icc 0 (d2 - 1)) = 0) →
        daggregate false (fuel + 1) randMax rnd (rArray d0 d1 d2 (fun x => .num (f x))) h t = .error .uninit) := by
  have ha : Apart (FloatP.zero : Special ℝ) (FloatP.oneSub FloatP.zero) := by
    have e1 : (FloatP.zero : Special ℝ) = .num 0 := rfl
    have e2 : (FloatP.oneSub (Special.num 0) : Special ℝ) = .num (1 - 0) := rfl
    rw [e1, e2, sub_zero]
    have key : ∀ a b : ℝ, FloatP.lt (Special.num a) (Special.num b) = decide (a < b) := by
      intro a b
      show decide (decide (a < b) = true) = _
      simp
    exact ⟨by rw [key]; simp, by rw [key]; simp, by rw [key]; simp, by rw [key]; simp⟩
  have nl := exactNaN ℝ
  refine ⟨fun hz => oR_aux nl h0 h1 h2 h2' hF ha fuel randMax rnd t (fun v hv => ?_), fun h tree near hlt =>
    ⟨fun hz => hR_aux nl h0 h1 hF' tree near hlt ha fuel randMax rnd t (fun v hmd hv => ?_), fun hb hz =>
      dR_aux nl h0 h1 h2 h2' hb tree near hlt ha fuel randMax rnd t (fun v hmd hv => ?_)⟩⟩
  · obtain ⟨q, e, hq⟩ := orderedExact v (d0 * d1) d2 (fun k i => f (k / d1, k % d1, i))
      (fun k i hk hi => hf _ _ _ (C49.divMod_aux hk).1 (C49.divMod_aux hk).2 hi) hv h2 h2'
    refine ⟨q, _, e, hq, .inl (numZero_aux rfl ?_)⟩
    have := C49.series_aux d0 d1 (fun i j k => f (i, j, k)) (Finset.Icc 0 (d2 - 1))
    rwa [← this.1, ← this.2] at hz
  · obtain ⟨q, e, hq⟩ := hierarchicalExact d0 _ v hmd hlt (d1 * d2) (fun k l => f (l, k / d2, k % d2))
      (fun k l hk hl => hf _ _ _ hl (C49.divMod_aux hk).1 (C49.divMod_aux hk).2) hv
    refine ⟨q, _, e, hq, .inl (numZero_aux rfl ?_)⟩
    have := C49.series_aux d1 d2 (fun j k l => f (l, j, k)) (Finset.range d0)
    rwa [← this.1, ← this.2] at hz
  · obtain ⟨q, e, hq⟩ := spatiotemporalExact d0 _ v hmd hlt d1 d2 h2 h2' hb (fun k x => f (x.1, k, x.2))
      (fun k l i hk hl hi => hf _ _ _ hl hk hi) hv
    refine ⟨q, _, e, hq, .inl (numZero_aux rfl ?_)⟩
    have := C49.series_aux d1 1 (fun j _ (c : Nat × Nat) => f (c.1, j, c.2)) (Finset.range d0 ×ˢ Finset.Icc 0 (d2 - 1))
    simp only [Nat.mul_one, Nat.div_one] at this
    rwa [← this.1, ← this.2] at hz

/-- Homogeneous data: in every series all values are equal. -/
theorem equalArray (d0 d1 d2 : Nat) (h0 : 0 < d0) (h1 : 0 < d1) (h2 : 0 < d2) (h2' : d2 ≤ 65535) (hF : d0 * d1 < 2 ^ 32) (hF' : d1 * d2 < 2 ^ 32) (fuel : Nat)
    (randMax : Special ℝ) (rnd : Special ℝ → Special ℝ) (t : Special ℝ) (c : ℝ) (hc : 0 ≤ c) :
    oaggregate false (fuel + 1) randMax rnd (rArray d0 d1 d2 (fun _ => .num c)) t = .error .uninit ∧
    ∀ h : List Int, IsTree d0 (h.map (· - 1)) ((h.map (· - 1)).length - 1) → NearestFirst d0 (h.map (· - 1)) →
      d0 < (h.map (· - 1)).length →
      haggregate false (fuel + 1) randMax rnd (rArray d0 d1 d2 (fun _ => .num c)) h t = .error .uninit ∧
      (d0 * d2 < 2147483648 →
        daggregate false (fuel + 1) randMax rnd (rArray d0 d1 d2 (fun _ => .num c)) h t = .error .uninit) := by
  have key : ∀ {ι : Type} (s : Finset ι), lossOver s (fun _ => c) = 0 :=
    fun s => (loss_zero_iff (fun _ _ => hc)).mpr (fun _ _ _ _ => rfl)
  obtain ⟨e1, e2⟩ := exactArray d0 d1 d2 h0 h1 h2 h2' hF hF' fuel randMax rnd t (fun _ => c) (fun _ _ _ _ _ _ => hc)
  refine ⟨e1 (.inr (by simp [loss3, key])), fun h tree near hlt => ?_⟩
  obtain ⟨e3, e4⟩ := e2 h tree near hlt
  exact ⟨e3 (.inr (by simp [loss3, key])), fun hb => e4 hb (.inr (by simp [loss3, key]))⟩

/-! ## The theorems applied -/

/-- The extended reals satisfy the laws of zero. -/
theorem realZeroLaws : ZeroLaws (Special ℝ) where
  add := by show Special.num ((0 : ℝ) + 0) = .num 0; rw [add_zero]
  sub := by show Special.num ((0 : ℝ) - 0) = .num 0; rw [sub_zero]
  lt h := by
    have : decide ((0 : ℝ) < 0) = true := h
    simp at this
  mulLog z _ := by show Special.num ((0 : ℝ) * _) = .num 0; rw [zero_mul]
  divLn := by
    have hl : (0 : ℝ) < Real.log 2 := Real.log_pos (by norm_num)
    show Special.div (.num 0) (.num (Real.log 2)) = .num 0
    rw [Special.div, if_pos (.inr hl), zero_div]

/-- Four equal values normalised: one part for ordered data. -/
example : ∃ q w q' P, (OQualities.ofValues (OValuesN1.ofVec (table1 4 fun _ => Special.num (5 : ℝ))).toOValues).computeQualities =
    .ok ⟨w, some q⟩ ∧ (⟨w, some q⟩ : OQualities (Special ℝ)).normalize = .ok ⟨w, some q'⟩ ∧
      oBestPartition q' (Special.num (1 / 2 : ℝ)) = .ok P ∧ P.parts.map (fun x => (x.start, x.end)) = [(0, 3)] := by
  have hv := (OValuesN1.ofVec_holds (O := 4) (fun _ => Special.num (5 : ℝ))).data
  obtain ⟨q, e, e0⟩ := orderedExact _ 1 4 (fun _ _ => 5) (fun _ _ _ _ => by norm_num) hv (by omega) (by omega)
  obtain ⟨q1, w1, g, g0, g1⟩ := ordered (F := Special ℝ) (exactNaN ℝ) _ 1 4 _ hv (by omega) (by omega)
  rw [e] at g
  obtain rfl : q = q1 := by simpa using Except.ok.inj g
  rw [e0] at g0
  obtain rfl := Except.ok.inj g0
  obtain ⟨q', n1, n2, _⟩ := g1 (.inl (numZero_aux rfl (.inr ((lossSeries_zero_iff (fun _ _ _ _ => by norm_num)).mpr
    (fun _ _ _ _ _ _ => rfl)))))
  obtain ⟨P, p1, p2, _⟩ := n2 (.num (1 / 2))
  exact ⟨q, _, q', P, e, n1, p1, p2⟩

/-- The same four values as leaves of a hierarchy: four parts. -/
example : ∃ md q w q' P, mkMeta 4 [4, 4, 5, 5, 6, 6, -1] = .ok md ∧
    (HQualities.ofValues (⟨1, md, table1 4 fun _ => Special.num (5 : ℝ)⟩ : HValuesN1 (Special ℝ)).toHValues).computeQualities =
      .ok ⟨w, some q, md⟩ ∧ (⟨w, some q, md⟩ : HQualities (Special ℝ)).normalize = .ok ⟨w, some q', md⟩ ∧
      hBestPartition q' md (Special.num (1 / 2 : ℝ)) = .ok P ∧ (P.parts.map HPart.h).Perm [0, 1, 2, 3] := by
  obtain ⟨md, e, r⟩ := C57.meta_aux
  have hv : HData (⟨1, md, table1 4 fun _ => Special.num (5 : ℝ)⟩ : HValuesN1 (Special ℝ)).toHValues 1 4
      (fun _ _ => .num 5) :=
    HValuesN1.Holds.data (c := (⟨1, md, table1 4 fun _ => Special.num (5 : ℝ)⟩ : HValuesN1 (Special ℝ))) (md := md)
      (L := 4) (f := fun _ => Special.num (5 : ℝ)) ⟨rfl, rfl, rfl⟩
  obtain ⟨q, h1, h2⟩ := hierarchicalExact 4 [4, 4, 5, 5, 6, 6, -1] _ r (by decide) 1 (fun _ _ => 5)
    (fun _ _ _ _ => by norm_num) hv
  obtain ⟨q1, w1, g, g0, g1⟩ := hierarchical (F := Special ℝ) (exactNaN ℝ) 4 [4, 4, 5, 5, 6, 6, -1] _ r (by decide)
    (by omega) 1 _ hv
  rw [h1] at g
  obtain rfl : q = q1 := by simpa using Except.ok.inj g
  rw [h2] at g0
  obtain rfl := Option.some.inj g0
  obtain ⟨q', n1, n2, _⟩ := g1 (.inl (numZero_aux rfl (.inr ((lossSeries_zero_iff (fun _ _ _ _ => by norm_num)).mpr
    (fun _ _ _ _ _ _ => rfl)))))
  obtain ⟨P, p1, p2, _⟩ := n2 (.num (1 / 2))
  exact ⟨md, q, _, q', P, e, h1, n1, p1, p2⟩

/-- An array of zeros. -/
example (t : Special ℝ) : oaggregate false 1 (.num 2147483647) id (rArray 2 3 4 (fun _ => (0 : Special ℝ))) t =
    .error .uninit := by
  refine (zeroArray (F := Special ℝ) (exactNaN ℝ) realZeroLaws 2 3 4 (by omega) (by omega) (by omega) (by omega) (by omega) (by omega) ?_ 0 _ _ t).1
  have key : ∀ a b : ℝ, FloatP.lt (Special.num a) (Special.num b) = decide (a < b) := by
    intro a b
    show decide (decide (a < b) = true) = _
    simp
  have e2 : (FloatP.oneSub (Special.num 0) : Special ℝ) = .num (1 - 0) := rfl
  show Apart (Special.num (0 : ℝ)) (FloatP.oneSub (Special.num 0))
  rw [e2, sub_zero]
  exact ⟨by rw [key]; simp, by rw [key]; simp, by rw [key]; simp, by rw [key]; simp⟩

/-- Tables over the extended rationals, evaluated: NaN everywhere gives one interval, but all leaves. -/
example : (oBestPartition (⟨3, List.replicate 6 ⟨.nan, .num 0⟩⟩ : UTM (Quality (Special ℚ))) (Special.num (1 / 2 : ℚ))).toOption.map
    (fun P => P.parts.map (fun x => (x.start, x.end))) = some [(0, 2)] := by decide +kernel

example : ((mkMeta 4 [4, 4, 5, 5, 6, 6, -1]).bind fun md =>
    hBestPartition (List.replicate 7 (⟨.num 0, .nan⟩ : Quality (Special ℚ))) md (Special.num (1 / 2 : ℚ))).toOption.map
      (fun P => P.parts.map HPart.h) = some [0, 1, 2, 3] := by decide +kernel

/-! ## The hypotheses are met by concrete inputs (`Proofs/Samples.lean`) -/

example := orderedTable (F := Special ℝ) (exactNaN ℝ) _ 3 _ (Sample.triangleRep fun _ _ => (⟨.nan, .num 0⟩ : Quality (Special ℝ))) (by decide) (.inl rfl)
example := spatiotemporal (F := Special ℝ) (exactNaN ℝ) 4 Sample.tree (Sample.dOf fun _ _ => Special.num (5 : ℝ)) Sample.right (by decide) 2 3 (by decide)
  (by decide) (by decide) _ (Sample.dData _)
example := orderedZero realZeroLaws (Sample.oOf fun _ _ => 0) 2 3 _ (Sample.oData _) (by decide) (fun _ _ _ _ => rfl)
example := hierarchicalZero realZeroLaws 4 Sample.tree (Sample.hOf fun _ _ => 0) Sample.right (by decide) 2 _ (Sample.hData _) (fun _ _ _ _ => rfl)
example := spatiotemporalZero realZeroLaws 4 Sample.tree (Sample.dOf fun _ _ => 0) Sample.right (by decide) 2 3 (by decide) (by decide) _ (Sample.dData _)
  (fun _ _ _ _ _ _ => rfl)
example := spatiotemporalExact 4 Sample.tree (Sample.dOf fun k x => .num (Sample.dVal k x)) Sample.right (by decide) 2 3 (by decide) (by decide) (by decide) _
  Sample.d_nonneg (Sample.dData _)
example := equalArray 2 3 4 (by decide) (by decide) (by decide) (by decide) (by decide) (by decide) 5 (.num 2147483647) id (.num (1 / 16)) 7 (by norm_num)

end Lp.C59
