import Verif.Proofs.Missing
import Verif.Props.C59

/-!
# C76 — missing and infinite values in the data

A value NaN (R's `NA` or `NaN` in the array) or an infinite one makes the gain or the loss of every part with more than one cell that contains
it NaN.  Without `normalize()` and with it, the ordered and the spatiotemporal partitioner then return the single whole for every parameter.
The hierarchical partitioner without `normalize()` only avoids the nodes above the missing value, and is optimal otherwise; after
`normalize()` it returns all the leaves.  The functions exported to R, which always normalise, read
an uninitialised variable.
-/

namespace Lp.C76
open Spec

section
variable {F K : Type} [LDLog K] [FloatP F K] {isNaN : K → Prop}

theorem ordered_aux (nl : NaNLaws isNaN) (v : OValues K) (m n : Nat) (V : Nat → Nat → K) (hv : OData v m n V) (h0 : 0 < n) (hn : n ≤ 65535)
    (hw : ∀ i j w, i < j → j < n → i = 0 → j = n - 1 → Measured V (Finset.Icc i j) (Finset.Icc i j).card m w → NaNQuality isNaN w)
    (h2 : 2 ≤ n) :
    ∃ q q', (OQualities.ofValues v).computeQualities = .ok ⟨some v, some q⟩ ∧
      (⟨some v, some q⟩ : OQualities K).normalize = .ok ⟨some v, some q'⟩ ∧
      ∀ X, X = q ∨ X = q' → (∀ p : F, ∃ P, oBestPartition X p = .ok P ∧
          P.parts.map (fun x => (x.start, x.end)) = [(0, ((n - 1 : Nat) : Int))] ∧ NaNQuality isNaN P.quality) ∧
        Undecided (oOps (F := F) X) := by
  obtain ⟨q, f, e, h1, _, h3⟩ := oqCompute_sum hv hn
  have e' : (OQualities.ofValues v).computeQualities = .ok ⟨some v, some q⟩ := by
    unfold OQualities.computeQualities OQualities.ofValues
    simp only [e, okBind, pureOk]
  have hnan : NaNQuality isNaN (f 0 (n - 1)) := by
    have := h3 0 (n - 1) (by omega) (by omega)
    rw [card_Icc 0 (n - 1) (Nat.zero_le _)] at this
    exact hw 0 (n - 1) _ (by omega) (by omega) rfl rfl this
  obtain ⟨q1, w1, g, g0, g1⟩ := C59.ordered (F := F) nl v m n V hv h0 hn
  rw [e'] at g
  obtain rfl : q = q1 := by simpa using Except.ok.inj g
  rw [h1.get (Nat.zero_le _) (by omega)] at g0
  obtain rfl := Except.ok.inj g0
  obtain ⟨q', n1, n2, n3⟩ := g1 (.inr hnan)
  refine ⟨q, q', e', n1, ?_⟩
  rintro X (rfl | rfl)
  · exact C59.orderedTable nl X n f h1 h0 hnan
  · exact ⟨n2, n3⟩

/-- Ordered data with a missing value, in any arithmetic with NaN: every part of more than one slice that contains it has loss NaN, and, normalised
or not, the partition is the whole at every parameter, and the search keeps nothing else and has no optimum. -/
theorem ordered (nl : NaNLaws isNaN) (v : OValues K) (m n : Nat) (V : Nat → Nat → K) (hv : OData v m n V) (h2 : 2 ≤ n) (hn : n ≤ 65535)
    (k o : Nat) (hk : k < m) (ho : o < n) (missing : isNaN (V k o)) :
    ∃ q q', (OQualities.ofValues v).computeQualities = .ok ⟨some v, some q⟩ ∧
      (⟨some v, some q⟩ : OQualities K).normalize = .ok ⟨some v, some q'⟩ ∧
      (∀ i j, i < j → j < n → i ≤ o → o ≤ j → ∃ w, q.get i j = .ok w ∧ isNaN w.loss) ∧
      ∀ X, X = q ∨ X = q' → (∀ p : F, ∃ P, oBestPartition X p = .ok P ∧
          P.parts.map (fun x => (x.start, x.end)) = [(0, ((n - 1 : Nat) : Int))] ∧ NaNQuality isNaN P.quality) ∧
        Undecided (oOps (F := F) X) := by
  obtain ⟨q, q', e, e', h⟩ := ordered_aux (F := F) nl v m n V hv (by omega) hn
    (fun i j w _ _ hi hj hm => .inr (hm.nan nl hk (Finset.mem_Icc.mpr ⟨by omega, by omega⟩) missing)) h2
  obtain ⟨q1, f, g, h1, _, h3⟩ := C57.ordered v m n V hv hn
  rw [e] at g
  obtain rfl : q = q1 := by simpa using Except.ok.inj g
  refine ⟨q, q', e, e', ?_, h⟩
  intro i j hij hj hi ho
  exact ⟨_, h1 i j hij.le hj, (h3 i j hij hj).nan nl hk (Finset.mem_Icc.mpr ⟨hi, ho⟩) missing⟩

omit [LDLog K] [FloatP F K] in
theorem root_aux {leaves : Nat} {parents : List Int} {root : Nat} (t : IsTree leaves parents root) (hlt : leaves < parents.length)
    (h0 : 0 < leaves) : leaves ≤ root := by
  by_contra hc
  push Not at hc
  obtain ⟨y, hy, hne⟩ : ∃ y, y < parents.length ∧ y ≠ root := by
    by_cases h : root = 0
    · exact ⟨1, by omega, by omega⟩
    · exact ⟨0, by omega, by omega⟩
  rcases under_iff.mp (t.reach y hy) with h | ⟨c, hc', _⟩
  · exact hne h
  · exact (t.leaf root t.rootLt).mp hc ⟨c, hc'⟩

theorem hierarchical_aux (nl : NaNLaws isNaN) (leaves : Nat) (parents : List Int) (v : HValues K) (hmd : RightMeta leaves parents v.md)
    (hlt : leaves < parents.length) (h0 : 0 < leaves) (m : Nat) (V : Nat → Nat → K) (hv : HData v m leaves V)
    (hw : ∀ w, Measured V (Finset.range leaves) (Finset.range leaves).card m w → NaNQuality isNaN w) :
    ∃ q w, (HQualities.ofValues v).computeQualities = .ok ⟨some v, some q, v.md⟩ ∧ q[v.md.root]? = some w ∧ NaNQuality isNaN w := by
  obtain ⟨q, f, e, h1, h2, h3⟩ := C57.hierarchical leaves parents v hmd hlt m V hv
  refine ⟨q, f v.md.root, e, h1 _ hmd.tree.rootLt, ?_⟩
  have hr := root_aux hmd.tree hlt h0
  have := h3 _ hr hmd.tree.rootLt
  rw [leavesUnder_root hmd.tree] at this
  exact hw _ this

/-- Hierarchical data with a missing value, normalised: all the leaves at every parameter; the search keeps nothing else and has no optimum. -/
theorem hierarchical (nl : NaNLaws isNaN) (leaves : Nat) (parents : List Int) (v : HValues K) (hmd : RightMeta leaves parents v.md)
    (hlt : leaves < parents.length) (m : Nat) (V : Nat → Nat → K) (hv : HData v m leaves V)
    (k l : Nat) (hk : k < m) (hl : l < leaves) (missing : isNaN (V k l)) :
    ∃ q q', (HQualities.ofValues v).computeQualities = .ok ⟨some v, some q, v.md⟩ ∧
      (⟨some v, some q, v.md⟩ : HQualities K).normalize = .ok ⟨some v, some q', v.md⟩ ∧
      (∀ x, leaves ≤ x → x < parents.length → Under parents x l → ∃ w, q[x]? = some w ∧ isNaN w.loss) ∧
      (∀ p : F, ∃ P, hBestPartition q' v.md p = .ok P ∧ (P.parts.map HPart.h).Perm (List.range leaves) ∧ NaNQuality isNaN P.quality) ∧
      Undecided (hOps (F := F) q' v.md) := by
  obtain ⟨q, w, e, e0, ew⟩ := hierarchical_aux nl leaves parents v hmd hlt (by omega) m V hv
    (fun w hm => .inr (hm.nan nl hk (Finset.mem_range.mpr hl) missing))
  obtain ⟨q1, w1, g, g0, g1⟩ := C59.hierarchical (F := F) nl leaves parents v hmd hlt (by omega) m V hv
  obtain ⟨q2, f, c, c1, _, c3⟩ := C57.hierarchical leaves parents v hmd hlt m V hv
  rw [e] at g c
  obtain rfl : q = q1 := by simpa using Except.ok.inj g
  obtain rfl : q = q2 := by simpa using Except.ok.inj c
  rw [e0] at g0
  obtain rfl := Option.some.inj g0
  obtain ⟨q', n1, n2, n3⟩ := g1 (.inr ew)
  refine ⟨q, q', e, n1, ?_, n2, n3⟩
  intro x hx hx' hu
  exact ⟨_, c1 x hx', (c3 x hx hx').nan nl hk (mem_leavesUnder.mpr ⟨hl, hu⟩) missing⟩

theorem spatiotemporal_aux (nl : NaNLaws isNaN) (leaves : Nat) (parents : List Int) (v : DValues K) (hmd : RightMeta leaves parents v.md)
    (hlt : leaves < parents.length) (hl0 : 0 < leaves) (m n : Nat) (h0 : 0 < n) (hn : n ≤ 65535) (hb : leaves * n < 2147483648)
    (V : Nat → Nat × Nat → K) (hv : DData v m leaves n V)
    (hw : ∀ w, Measured V (Finset.range leaves ×ˢ Finset.Icc 0 (n - 1)) (Finset.range leaves ×ˢ Finset.Icc 0 (n - 1)).card m w →
      NaNQuality isNaN w) :
    ∃ q w, (DQualities.ofValues v).computeQualities = .ok ⟨some v, some q, v.md⟩ ∧ mget q v.md.root 0 (n - 1) = .ok w ∧
      NaNQuality isNaN w := by
  obtain ⟨q, f, e, h1, _, h3⟩ := C57.spatiotemporal leaves parents v hmd hlt m n hn hb V hv
  have hr := root_aux hmd.tree hlt hl0
  have := h3 v.md.root 0 (n - 1) hmd.tree.rootLt (Nat.zero_le _) (by omega) (by omega)
  rw [leavesUnder_root hmd.tree] at this
  exact ⟨q, _, e, h1 _ _ _ hmd.tree.rootLt (Nat.zero_le _) (by omega), hw _ this⟩

/-- Spatiotemporal data with a missing value: as for ordered data. -/
theorem spatiotemporal (nl : NaNLaws isNaN) (leaves : Nat) (parents : List Int) (v : DValues K) (hmd : RightMeta leaves parents v.md)
    (hlt : leaves < parents.length) (m n : Nat) (hn : n ≤ 65535) (hb : leaves * n < 2147483648)
    (V : Nat → Nat × Nat → K) (hv : DData v m leaves n V) (k l o : Nat) (hk : k < m) (hl : l < leaves) (ho : o < n)
    (missing : isNaN (V k (l, o))) :
    ∃ q q', (DQualities.ofValues v).computeQualities = .ok ⟨some v, some q, v.md⟩ ∧
      (⟨some v, some q, v.md⟩ : DQualities K).normalize = .ok ⟨some v, some q', v.md⟩ ∧
      (∀ x i j, x < parents.length → i ≤ j → j < n → ¬ (x < leaves ∧ i = j) → Under parents x l → i ≤ o → o ≤ j →
        ∃ w, mget q x i j = .ok w ∧ isNaN w.loss) ∧
      ∀ X, X = q ∨ X = q' → (∀ p : F, ∃ P, dBestPartition X v.md p = .ok P ∧
          P.parts.map (fun x => (x.h, x.start, x.end)) = [(v.md.root, 0, n - 1)] ∧ NaNQuality isNaN P.quality) ∧
        Undecided (dOps (F := F) X v.md) := by
  have mem : ∀ x i j, Under parents x l → i ≤ o → o ≤ j → (l, o) ∈ leavesUnder leaves parents x ×ˢ Finset.Icc i j :=
    fun x i j hu hi hj => Finset.mem_product.mpr ⟨mem_leavesUnder.mpr ⟨hl, hu⟩, Finset.mem_Icc.mpr ⟨hi, hj⟩⟩
  have hw : ∀ w, Measured V (Finset.range leaves ×ˢ Finset.Icc 0 (n - 1)) (Finset.range leaves ×ˢ Finset.Icc 0 (n - 1)).card m w →
      NaNQuality isNaN w := fun w hm => .inr (hm.nan nl (i := (l, o)) hk
    (Finset.mem_product.mpr ⟨Finset.mem_range.mpr hl, Finset.mem_Icc.mpr ⟨Nat.zero_le _, by omega⟩⟩) missing)
  obtain ⟨q, f, e, h1, h2⟩ := dqCompute_sum hmd hlt hv hn hb
  have e' : (DQualities.ofValues v).computeQualities = .ok ⟨some v, some q, v.md⟩ := by
    unfold DQualities.computeQualities DQualities.ofValues
    simp only [e, okBind, pureOk]
  obtain ⟨q1, w1, a, a0, a1⟩ := spatiotemporal_aux nl leaves parents v hmd hlt (by omega) m n (by omega) hn hb V hv hw
  obtain ⟨q2, w2, g, g0, g1⟩ := C59.spatiotemporal (F := F) nl leaves parents v hmd hlt m n (by omega) hn hb V hv
  obtain ⟨q3, f3, c, c1, _, c3⟩ := C57.spatiotemporal leaves parents v hmd hlt m n hn hb V hv
  rw [e'] at a g c
  obtain rfl : q = q1 := by simpa using Except.ok.inj a
  obtain rfl : q = q2 := by simpa using Except.ok.inj g
  obtain rfl : q = q3 := by simpa using Except.ok.inj c
  rw [a0] at g0
  obtain rfl := Except.ok.inj g0
  have hf : f v.md.root 0 (n - 1) = w1 := by
    rw [h1.get hmd.tree.rootLt (Nat.zero_le _) (by omega)] at a0
    exact Except.ok.inj a0
  obtain ⟨q', n1, n2, n3⟩ := g1 (.inr a1)
  refine ⟨q, q', e', n1, ?_, ?_⟩
  · intro x i j hx hij hj hne hu hi ho
    exact ⟨_, c1 x i j hx hij hj, (c3 x i j hx hij hj hne).nan nl hk (mem x i j hu hi ho) missing⟩
  · rintro X (rfl | rfl)
    · exact C59.spatiotemporalTable nl leaves parents v.md hmd X n f h1 (by omega) hn (by rw [hf]; exact a1)
    · exact ⟨n2, n3⟩

/-- The functions exported to R, on an array with a missing value, in any arithmetic with NaN. -/
theorem missingArray (nl : NaNLaws isNaN) (d0 d1 d2 : Nat) (f : Nat × Nat × Nat → K) (h2' : d2 ≤ 65535) (hF : d0 * d1 < 2 ^ 32)
    (hF' : d1 * d2 < 2 ^ 32) (ha : Apart (FloatP.zero : F) (FloatP.oneSub FloatP.zero)) (fuel : Nat) (randMax : K) (rnd : K → K) (t : F)
    (i j k : Nat) (hi : i < d0) (hj : j < d1) (hk : k < d2) (missing : isNaN (f (i, j, k))) :
    oaggregate false (fuel + 1) randMax rnd (rArray d0 d1 d2 f) t = .error .uninit ∧
    ∀ h : List Int, IsTree d0 (h.map (· - 1)) ((h.map (· - 1)).length - 1) → NearestFirst d0 (h.map (· - 1)) →
      d0 < (h.map (· - 1)).length →
      haggregate false (fuel + 1) randMax rnd (rArray d0 d1 d2 f) h t = .error .uninit ∧
      (d0 * d2 < 2147483648 → daggregate false (fuel + 1) randMax rnd (rArray d0 d1 d2 f) h t = .error .uninit) := by
  have h0 : 0 < d0 := by omega
  have h1 : 0 < d1 := by omega
  have h2 : 0 < d2 := by omega
  refine ⟨?_, fun h tree near hlt => ⟨?_, fun hb => ?_⟩⟩
  · by_cases hd : 2 ≤ d2
    · refine C59.oR_aux nl h0 h1 h2 h2' hF ha fuel randMax rnd t (fun v hv => ?_)
      have hlt : i * d1 + j < d0 * d1 := by
        have : (i + 1) * d1 ≤ d0 * d1 := Nat.mul_le_mul_right _ hi
        rw [Nat.add_mul, Nat.one_mul] at this
        omega
      have hm : isNaN (f ((i * d1 + j) / d1, (i * d1 + j) % d1, k)) := by
        rw [Nat.mul_comm, Nat.mul_add_div h1, Nat.div_eq_of_lt hj, Nat.mul_add_mod, Nat.mod_eq_of_lt hj, Nat.add_zero]
        exact missing
      obtain ⟨q, _, e, _, hq, _⟩ := ordered (F := F) nl v _ _ _ hv hd h2' (i * d1 + j) k hlt hk hm
      obtain ⟨w, e', hw⟩ := hq 0 (d2 - 1) (by omega) (by omega) (Nat.zero_le _) (by omega)
      exact ⟨q, w, e, e', .inr (.inr hw)⟩
    · obtain rfl : d2 = 1 := by omega
      exact C59.singleSliceArray nl d0 d1 f h0 h1 hF ha fuel randMax rnd t
  · refine C59.hR_aux nl h0 h1 hF' tree near hlt ha fuel randMax rnd t (fun v hmd hv => ?_)
    have hlt' : j * d2 + k < d1 * d2 := by
      have : (j + 1) * d2 ≤ d1 * d2 := Nat.mul_le_mul_right _ hj
      rw [Nat.add_mul, Nat.one_mul] at this
      omega
    have hm : isNaN (f (i, (j * d2 + k) / d2, (j * d2 + k) % d2)) := by
      rw [Nat.mul_comm, Nat.mul_add_div h2, Nat.div_eq_of_lt hk, Nat.mul_add_mod, Nat.mod_eq_of_lt hk, Nat.add_zero]
      exact missing
    obtain ⟨q, w, e, e', hw⟩ := hierarchical_aux nl d0 _ v hmd hlt h0 _ _ hv
      (fun w hm' => .inr (hm'.nan nl hlt' (Finset.mem_range.mpr hi) hm))
    exact ⟨q, w, e, e', .inr hw⟩
  · refine C59.dR_aux nl h0 h1 h2 h2' hb tree near hlt ha fuel randMax rnd t (fun v hmd hv => ?_)
    obtain ⟨q, w, e, e', hw⟩ := spatiotemporal_aux nl d0 _ v hmd hlt h0 _ _ h2 h2' hb _ hv
      (fun w hm' => .inr (hm'.nan nl (i := (i, k)) hj
        (Finset.mem_product.mpr ⟨Finset.mem_range.mpr hi, Finset.mem_Icc.mpr ⟨Nat.zero_le _, by omega⟩⟩) missing))
    exact ⟨q, w, e, e', .inr hw⟩

end

/-! ## Exact numbers, infinity and NaN -/

/-- The number that a value is; 0 if it is none. -/
noncomputable def number : Special ℝ → ℝ
  | .num a => a
  | _ => 0

/-- Non-negative numbers, plus infinity and NaN. -/
def Allowed (x : Special ℝ) : Prop := x = .nan ∨ x = .inf false ∨ ∃ a, 0 ≤ a ∧ x = .num a

theorem er_inf_aux : entropyReduction (Special.inf false : Special ℝ) 0 = .inf false := by
  unfold entropyReduction entropy ln2
  rw [if_pos (by show (!false) = true; rfl)]
  have hl : ¬ Real.log 2 < 0 := not_lt.mpr (Real.log_pos (by norm_num)).le
  show Special.sub (Special.div (Special.mul (.inf false) (Special.log (.inf false))) (.num (Real.log 2))) (.num 0) = _
  have e1 : Special.log (.inf false : Special ℝ) = .inf false := rfl
  rw [e1]
  have e2 : Special.mul (.inf false : Special ℝ) (.inf false) = .inf false := rfl
  rw [e2]
  have e3 : Special.div (.inf false : Special ℝ) (.num (Real.log 2)) = .inf false := by rw [Special.div, if_neg hl]
  rw [e3]
  rfl

theorem er_inf_inf_aux : entropyReduction (Special.inf false : Special ℝ) (.inf false) = .nan := by
  unfold entropyReduction entropy ln2
  rw [if_pos (by show (!false) = true; rfl)]
  have hl : ¬ Real.log 2 < 0 := not_lt.mpr (Real.log_pos (by norm_num)).le
  show Special.sub (Special.div (Special.mul (.inf false) (Special.log (.inf false))) (.num (Real.log 2))) (.inf false) = _
  have e1 : Special.log (.inf false : Special ℝ) = .inf false := rfl
  rw [e1]
  have e2 : Special.mul (.inf false : Special ℝ) (.inf false) = .inf false := rfl
  rw [e2]
  have e3 : Special.div (.inf false : Special ℝ) (.num (Real.log 2)) = .inf false := by rw [Special.div, if_neg hl]
  rw [e3]
  rfl

theorem sum_inf_aux {ι : Type} [DecidableEq ι] {f : ι → Special ℝ} {s : Finset ι} {x : Special ℝ} (h : SumOf f s x)
    (hf : ∀ i ∈ s, f i = .inf false ∨ ∃ a, f i = .num a) :
    (x = .inf false ∧ ∃ i ∈ s, f i = .inf false) ∨ ((∃ a, x = .num a) ∧ ∀ i ∈ s, ∃ a, f i = .num a) := by
  induction h with
  | none => exact .inr ⟨⟨0, rfl⟩, by simp⟩
  | one i =>
    rcases hf i (by simp) with h | ⟨a, h⟩
    · exact .inl ⟨h, i, by simp, h⟩
    · exact .inr ⟨⟨a, h⟩, by simpa using ⟨a, h⟩⟩
  | @add s t x y _ _ _ ih1 ih2 =>
    have h1 := ih1 (fun i hi => hf i (Finset.mem_union_left _ hi))
    have h2 := ih2 (fun i hi => hf i (Finset.mem_union_right _ hi))
    rcases h1 with ⟨rfl, i, hi, e⟩ | ⟨⟨a, rfl⟩, h1⟩
    · refine .inl ⟨?_, i, Finset.mem_union_left _ hi, e⟩
      rcases h2 with ⟨rfl, _⟩ | ⟨⟨a, rfl⟩, _⟩ <;> rfl
    · rcases h2 with ⟨rfl, i, hi, e⟩ | ⟨⟨b, rfl⟩, h2⟩
      · exact .inl ⟨rfl, i, Finset.mem_union_right _ hi, e⟩
      · refine .inr ⟨⟨a + b, rfl⟩, fun i hi => ?_⟩
        rcases Finset.mem_union.mp hi with hi | hi
        · exact h1 i hi
        · exact h2 i hi

/-- A part with a value that is not a number has gain or loss NaN. -/
theorem measured_aux {ι : Type} [DecidableEq ι] {V : Nat → ι → Special ℝ} {s : Finset ι} {n : Int} {m : Nat} {q : Quality (Special ℝ)}
    (h : Measured V s n m q) (hV : ∀ k < m, ∀ i ∈ s, Allowed (V k i)) {k : Nat} {i : ι} (hk : k < m) (hi : i ∈ s)
    (hn : ¬ ∃ a, V k i = .num a) : NaNQuality (fun a => a = .nan) q := by
  by_cases hnan : ∃ k' < m, ∃ i' ∈ s, V k' i' = .nan
  · obtain ⟨k', hk', i', hi', e⟩ := hnan
    exact .inr (h.nan (exactNaN ℝ) hk' hi' e)
  · left
    have hV' : ∀ k < m, ∀ i ∈ s, V k i = .inf false ∨ ∃ a, V k i = .num a := by
      intro k hk i hi
      rcases hV k hk i hi with h | h | ⟨a, _, h⟩
      · exact absurd ⟨k, hk, i, hi, h⟩ hnan
      · exact .inl h
      · exact .inr ⟨a, h⟩
    clear hV hnan
    induction h with
    | zero => omega
    | @next k' q S I _ hS hI ih =>
      rcases Nat.lt_or_eq_of_le (Nat.le_of_lt_succ hk) with hk' | rfl
      · exact (exactNaN ℝ).add_left _ _ (ih hk' (fun k hk => hV' k (by omega)))
      · refine (exactNaN ℝ).add_right _ _ ?_
        have e1 : S = .inf false := by
          rcases sum_inf_aux hS (hV' k (by omega)) with h | h
          · exact h.1
          · exact absurd (h.2 i hi) hn
        have e2 : I = .inf false := by
          have := sum_inf_aux hI (fun i hi => by
            rcases hV' k (by omega) i hi with h | ⟨a, h⟩
            · exact .inl (by rw [h]; exact er_inf_aux)
            · exact .inr ⟨_, by rw [h]; exact C59.numEr_aux a 0⟩)
          rcases this with h | h
          · exact h.1
          · obtain ⟨a, ha⟩ := h.2 i hi
            rcases hV' k (by omega) i hi with h | h
            · rw [h, er_inf_aux] at ha
              cases ha
            · exact absurd h hn
        rw [e1, e2]
        exact er_inf_inf_aux

theorem apart_aux : Apart (FloatP.zero : Special ℝ) (FloatP.oneSub FloatP.zero) := by
  have e1 : (FloatP.zero : Special ℝ) = .num 0 := rfl
  have e2 : (FloatP.oneSub (Special.num 0) : Special ℝ) = .num (1 - 0) := rfl
  rw [e1, e2, sub_zero]
  have key : ∀ a b : ℝ, FloatP.lt (Special.num a) (Special.num b) = decide (a < b) := by
    intro a b
    show decide (decide (a < b) = true) = _
    simp
  exact ⟨by rw [key]; simp, by rw [key]; simp, by rw [key]; simp, by rw [key]; simp⟩

/-- The functions exported to R, on an array of non-negative numbers, infinities and NaN that are not all numbers. -/
theorem infiniteArray (d0 d1 d2 : Nat) (f : Nat × Nat × Nat → Special ℝ) (h2' : d2 ≤ 65535) (hF : d0 * d1 < 2 ^ 32)
    (hF' : d1 * d2 < 2 ^ 32) (fuel : Nat) (randMax : Special ℝ) (rnd : Special ℝ → Special ℝ) (t : Special ℝ)
    (hf : ∀ i j k, i < d0 → j < d1 → k < d2 → Allowed (f (i, j, k)))
    (i j k : Nat) (hi : i < d0) (hj : j < d1) (hk : k < d2) (other : ¬ ∃ a, f (i, j, k) = .num a) :
    oaggregate false (fuel + 1) randMax rnd (rArray d0 d1 d2 f) t = .error .uninit ∧
    ∀ h : List Int, IsTree d0 (h.map (· - 1)) ((h.map (· - 1)).length - 1) → NearestFirst d0 (h.map (· - 1)) →
      d0 < (h.map (· - 1)).length →
      haggregate false (fuel + 1) randMax rnd (rArray d0 d1 d2 f) h t = .error .uninit ∧
      (d0 * d2 < 2147483648 → daggregate false (fuel + 1) randMax rnd (rArray d0 d1 d2 f) h t = .error .uninit) := by
  have h0 : 0 < d0 := by omega
  have h1 : 0 < d1 := by omega
  have h2 : 0 < d2 := by omega
  have nl := exactNaN ℝ
  have ha := apart_aux
  refine ⟨?_, fun h tree near hlt => ⟨?_, fun hb => ?_⟩⟩
  · by_cases hd : 2 ≤ d2
    · refine C59.oR_aux nl h0 h1 h2 h2' hF ha fuel randMax rnd t (fun v hv => ?_)
      have hlt : i * d1 + j < d0 * d1 := by
        have : (i + 1) * d1 ≤ d0 * d1 := Nat.mul_le_mul_right _ hi
        rw [Nat.add_mul, Nat.one_mul] at this
        omega
      have hm : ¬ ∃ a, f ((i * d1 + j) / d1, (i * d1 + j) % d1, k) = .num a := by
        rw [Nat.mul_comm, Nat.mul_add_div h1, Nat.div_eq_of_lt hj, Nat.mul_add_mod, Nat.mod_eq_of_lt hj, Nat.add_zero]
        exact other
      obtain ⟨q, g, e, h1', _, h3⟩ := C57.ordered v _ _ _ hv h2'
      refine ⟨q, _, e, h1' 0 (d2 - 1) (Nat.zero_le _) (by omega), .inr ?_⟩
      refine measured_aux (h3 0 (d2 - 1) (by omega) (by omega)) (fun k' hk' o ho => ?_) hlt
        (Finset.mem_Icc.mpr ⟨Nat.zero_le _, by omega⟩) hm
      have := Finset.mem_Icc.mp ho
      exact hf _ _ _ (C49.divMod_aux hk').1 (C49.divMod_aux hk').2 (by omega)
    · obtain rfl : d2 = 1 := by omega
      exact C59.singleSliceArray nl d0 d1 f h0 h1 hF ha fuel randMax rnd t
  · refine C59.hR_aux nl h0 h1 hF' tree near hlt ha fuel randMax rnd t (fun v hmd hv => ?_)
    have hlt' : j * d2 + k < d1 * d2 := by
      have : (j + 1) * d2 ≤ d1 * d2 := Nat.mul_le_mul_right _ hj
      rw [Nat.add_mul, Nat.one_mul] at this
      omega
    have hm : ¬ ∃ a, f (i, (j * d2 + k) / d2, (j * d2 + k) % d2) = .num a := by
      rw [Nat.mul_comm, Nat.mul_add_div h2, Nat.div_eq_of_lt hk, Nat.mul_add_mod, Nat.mod_eq_of_lt hk, Nat.add_zero]
      exact other
    obtain ⟨q, w, e, e', hw⟩ := hierarchical_aux nl d0 _ v hmd hlt h0 _ _ hv
      (fun w hm' => measured_aux hm' (fun k' hk' l hl => hf _ _ _ (Finset.mem_range.mp hl) (C49.divMod_aux hk').1 (C49.divMod_aux hk').2)
        hlt' (Finset.mem_range.mpr hi) hm)
    exact ⟨q, w, e, e', .inr hw⟩
  · refine C59.dR_aux nl h0 h1 h2 h2' hb tree near hlt ha fuel randMax rnd t (fun v hmd hv => ?_)
    obtain ⟨q, w, e, e', hw⟩ := spatiotemporal_aux nl d0 _ v hmd hlt h0 _ _ h2 h2' hb _ hv
      (fun w hm' => measured_aux hm' (i := (i, k)) (fun k' hk' x hx => by
          obtain ⟨a, b⟩ := Finset.mem_product.mp hx
          have := Finset.mem_Icc.mp b
          exact hf _ _ _ (Finset.mem_range.mp a) hk' (by omega)) hj
        (Finset.mem_product.mpr ⟨Finset.mem_range.mpr hi, Finset.mem_Icc.mpr ⟨Nat.zero_le _, by omega⟩⟩) other)
    exact ⟨q, w, e, e', .inr hw⟩

/-- Hierarchical data with values that are not numbers, not normalised, at a parameter between 0 and 1: no part but a leaf contains such a value, the
qualities are numbers, and the partition is optimal, and coarsest, among those that avoid the nodes above these leaves. -/
theorem hierarchicalAvoids (leaves : Nat) (parents : List Int) (v : HValues (Special ℝ)) (hmd : RightMeta leaves parents v.md)
    (hlt : leaves < parents.length) (m : Nat) (V : Nat → Nat → Special ℝ) (hv : HData v m leaves V)
    (hV : ∀ k l, k < m → l < leaves → Allowed (V k l)) (p : ℝ) (h0 : 0 ≤ p) (h1 : p ≤ 1) :
    let spoilt := fun x => leaves ≤ x ∧ ∃ l ∈ leavesUnder leaves parents x, ∃ k < m, ¬ ∃ a, V k l = .num a
    let Q : Nat → Quality ℝ := fun x => ⟨gainSeries m (leavesUnder leaves parents x) (fun k l => number (V k l)),
      lossSeries m (leavesUnder leaves parents x) (fun k l => number (V k l))⟩
    ∃ q P L, (HQualities.ofValues v).computeQualities = .ok ⟨some v, some q, v.md⟩ ∧
      hBestPartition q v.md (Special.num p) = .ok P ∧ LeafCover leaves parents L ∧ P.parts.map HPart.h = L ∧
      (∀ x ∈ L, ¬ spoilt x) ∧ P.quality = ⟨.num (gainOf Q L), .num (lossOf Q L)⟩ ∧
      ∀ L', LeafCover leaves parents L' → (∀ x ∈ L', ¬ spoilt x) →
        valueOf p (1 - p) Q L' ≤ valueOf p (1 - p) Q L ∧ (valueOf p (1 - p) Q L' = valueOf p (1 - p) Q L → Refines parents L' L) := by
  intro spoilt Q
  obtain ⟨q, f, e, r1, r2, r3⟩ := hqCompute_sum hmd hv hlt
  have hpos : ∀ k l, k < m → l < leaves → 0 ≤ number (V k l) := by
    intro k l hk hl
    rcases hV k l hk hl with h | h | ⟨a, ha, h⟩ <;> rw [h]
    · exact le_rfl
    · exact le_rfl
    · exact ha
  have hin : ∀ x l, l ∈ leavesUnder leaves parents x → l < leaves := fun x l h => (mem_leavesUnder.mp h).1
  have b1 : ∀ x, x < parents.length → spoilt x → leaves ≤ x ∧ NaNQuality (fun a => a = .nan) (f x) := by
    intro x hx hs
    obtain ⟨hs1, l, hl, k, hk, hn⟩ := hs
    exact ⟨hs1, measured_aux (r3 x (by omega) hx) (fun k hk l hl => hV k l hk (hin x l hl)) hk hl hn⟩
  have b2 : ∀ x, x < parents.length → ¬ spoilt x → f x = numQ (Q x) := by
    intro x hx hs
    by_cases hl : x < leaves
    · rw [r2 x hl]
      exact C59.singleton_aux (V := fun k l => number (V k l)) (m := m) (leavesUnder_leaf hmd.tree hl)
        (fun k hk l hl => hpos k l hk (hin x l hl))
    · have hall : ∀ k < m, ∀ l ∈ leavesUnder leaves parents x, V k l = .num (number (V k l)) := by
        intro k hk l hl'
        by_contra hc
        refine hs ⟨by omega, l, hl', k, hk, ?_⟩
        rintro ⟨a, ha⟩
        rw [ha] at hc
        exact hc rfl
      exact C59.numMeasured_aux (V := fun k l => number (V k l)) (fun k hk l hl => hpos k l hk (hin x l hl))
        ((r3 x hl hx).congr hall)
  have b3 : ∀ l, l < leaves → Q l = ⟨0, 0⟩ := by
    intro l hl
    have := C59.singleton_aux (V := fun k l => number (V k l)) (m := m) (leavesUnder_leaf hmd.tree hl)
      (fun k hk l' hl' => hpos k l' hk (hin l l' hl'))
    rw [Quality.mk.injEq] at this
    have g1 : gainSeries m (leavesUnder leaves parents l) (fun k l => number (V k l)) = 0 := (Special.num.inj this.1).symm
    have g2 : lossSeries m (leavesUnder leaves parents l) (fun k l => number (V k l)) = 0 := (Special.num.inj this.2).symm
    show (⟨_, _⟩ : Quality ℝ) = _
    rw [g1, g2]
  obtain ⟨P, L, e', c1, c2, c3, c4, c5⟩ := hBest_avoid hmd hlt r1 spoilt Q b1 b2 b3 p h0 h1
  refine ⟨q, P, L, ?_, e', c1, c3, c2, c4, c5⟩
  unfold HQualities.computeQualities HQualities.ofValues
  simp only [e, okBind, pureOk]

/-! ## Concrete cases -/

/-- The data 1, NaN, 2: one part, normalised or not. -/
example : ∃ q q' P P', (OQualities.ofValues (OValuesN1.ofVec (table1 3 fun o => if o = 1 then Special.nan else .num ((o : ℝ) + 1))).toOValues).computeQualities =
      .ok ⟨q, q'⟩ ∧ oBestPartition P (Special.num (1 / 2 : ℝ)) = .ok P' ∧ q' = some P ∧ P'.parts.map (fun x => (x.start, x.end)) = [(0, 2)] := by
  have hv := (OValuesN1.ofVec_holds (O := 3) (fun o => if o = 1 then Special.nan else .num ((o : ℝ) + 1))).data
  obtain ⟨q, q', e, e', _, h⟩ := ordered (F := Special ℝ) (exactNaN ℝ) _ 1 3 _ hv (by omega) (by omega) 0 1 (by omega) (by omega) (by simp)
  obtain ⟨P, p1, p2, _⟩ := (h q (.inl rfl)).1 (.num (1 / 2))
  exact ⟨_, _, q, P, e, p1, rfl, p2⟩

/-- An array of two processes, one type and two slices with an infinite value. -/
example (t : Special ℝ) : oaggregate false 1 (.num 2147483647) id (rArray 2 1 2 (fun x => if x = (1, 0, 1) then .inf false else .num (x.1 : ℝ))) t =
      .error .uninit ∧
    haggregate false 1 (.num 2147483647) id (rArray 2 1 2 (fun x => if x = (1, 0, 1) then .inf false else .num (x.1 : ℝ))) [3, 3, 0] t =
      .error .uninit := by
  have tree : IsTree 2 [2, 2, -1] 2 := .ofCheck (fun h => if h < 2 then 1 else 0) (by decide) (by decide) (by decide) (by decide)
  have near : NearestFirst 2 [2, 2, -1] :=
    balanced_nearestFirst tree (.ofCheck (fun h => if h < 2 then 0 else 1) (by decide) (by decide) (by decide))
  obtain ⟨h1, h2⟩ := infiniteArray 2 1 2 (fun x => if x = (1, 0, 1) then .inf false else .num (x.1 : ℝ)) (by norm_num) (by norm_num) (by norm_num) 0
    (.num 2147483647) id t (fun i j k _ _ _ => by
      dsimp only
      split
      · exact .inr (.inl rfl)
      · exact .inr (.inr ⟨(i : ℝ), Nat.cast_nonneg _, rfl⟩)) 1 0 1 (by norm_num) (by norm_num) (by norm_num) (by simp)
  exact ⟨h1, (h2 [3, 3, 0] tree near (by decide)).1⟩

/-- The leaves NaN, 1, 2, 2 under two nodes and a root, not normalised: the nodes 4 and 6 above the first leaf are never parts. -/
example : ∃ md q w P, mkMeta 4 [4, 4, 5, 5, 6, 6, -1] = .ok md ∧
    (HQualities.ofValues (⟨1, md, table1 4 fun l => if l = 0 then Special.nan else if l = 1 then .num (1 : ℝ) else .num 2⟩ :
      HValuesN1 (Special ℝ)).toHValues).computeQualities = .ok ⟨w, some q, md⟩ ∧
      hBestPartition q md (Special.num (1 / 2 : ℝ)) = .ok P ∧ 4 ∉ P.parts.map HPart.h ∧ 6 ∉ P.parts.map HPart.h := by
  obtain ⟨md, e, r⟩ := C57.meta_aux
  have hv := HValuesN1.Holds.data (c := (⟨1, md, table1 4 fun l => if l = 0 then Special.nan else if l = 1 then .num (1 : ℝ) else .num 2⟩ :
      HValuesN1 (Special ℝ))) (md := md) (L := 4)
      (f := fun l => if l = 0 then Special.nan else if l = 1 then .num (1 : ℝ) else .num 2) ⟨rfl, rfl, rfl⟩
  obtain ⟨q, P, L, c, c1, c2, c3, c4, _⟩ := hierarchicalAvoids 4 [4, 4, 5, 5, 6, 6, -1] _ r (by decide) 1 _ hv (fun k l _ _ => by
      split
      · exact .inl rfl
      · split
        · exact .inr (.inr ⟨1, by norm_num, rfl⟩)
        · exact .inr (.inr ⟨2, by norm_num, rfl⟩)) (1 / 2) (by norm_num) (by norm_num)
  have p04 : ParentIs [4, 4, 5, 5, 6, 6, -1] 0 4 := by unfold ParentIs; rfl
  have p46 : ParentIs [4, 4, 5, 5, 6, 6, -1] 4 6 := by unfold ParentIs; rfl
  have u4 : Under [4, 4, 5, 5, 6, 6, -1] 4 0 := under_iff.mpr (.inr ⟨0, p04, under_iff.mpr (.inl rfl)⟩)
  have u6 : Under [4, 4, 5, 5, 6, 6, -1] 6 0 := under_iff.mpr (.inr ⟨4, p46, u4⟩)
  refine ⟨md, q, _, P, e, c, c1, ?_, ?_⟩
  · rw [c3]
    intro h
    exact c4 4 h ⟨by omega, 0, mem_leavesUnder.mpr ⟨by omega, u4⟩, 0, by omega, by simp⟩
  · rw [c3]
    intro h
    exact c4 6 h ⟨by omega, 0, mem_leavesUnder.mpr ⟨by omega, u6⟩, 0, by omega, by simp⟩

/-- Seven nodes, leaves 0, 1 under 4, leaves 2, 3 under 5, root 6: NaN for the nodes above leaf 0 leaves node 5 undisturbed. -/
example : ((mkMeta 4 [4, 4, 5, 5, 6, 6, -1]).bind fun md =>
    hBestPartition ([⟨.num 0, .num 0⟩, ⟨.num 0, .num 0⟩, ⟨.num 0, .num 0⟩, ⟨.num 0, .num 0⟩, ⟨.num 2, .nan⟩, ⟨.num 2, .num 1⟩, ⟨.num 9, .nan⟩] :
      List (Quality (Special ℚ))) md (Special.num (1 / 2 : ℚ))).toOption.map
      (fun P => P.parts.map HPart.h) = some [0, 1, 5] := by decide +kernel

end Lp.C76
