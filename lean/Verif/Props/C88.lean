import Verif.Proofs.Finite
import Verif.Props.C66
import Verif.Props.C27
import Verif.Props.C57

/-!
# C88 — there is a threshold below which the search finds everything

A table has finitely many partitions, so the lists the parameter search returns cannot grow for ever: from some threshold on
a smaller one changes nothing any more, and then nothing that is best on an interval of parameters is missing.
-/

namespace Lp.C88
open Spec

section rounded
variable {F K P T : Type} [Field K] [LinearOrder K] [IsStrictOrderedRing K] [FloatP F K] {u : K}

theorem curve_aux (fl : FloatLaws F K u) {ops : PartOps F K P T} (ho : IsPartitioner ops) {t lo hi : F}
    (h0 : (0 : K) ≤ FloatP.toK lo) (hlt : (FloatP.toK lo : K) < FloatP.toK hi) (h1 : (FloatP.toK hi : K) ≤ 1)
    {fuel : Nat} {s0 st : PState F K P T} (h : computeBestPartitions ops false fuel t lo hi s0 = .ok st)
    {S : Finset (Quality K)} (hS : ∀ (p : F) X, ops.best p = .ok X → ops.quality X ∈ S) :
    (st.qualityList.map Prod.snd).length = st.pList.length ∧ st.pList.length ≤ S.card := by
  classical
  obtain ⟨B, hB, e3, e2⟩ := C45.split_aux fl ho h0 hlt h1 h
  have nd : (st.qualityList.map Prod.snd).Nodup :=
    (C45.increasing fl ops ho t lo hi h0 hlt h1 fuel s0 st h).imp (fun h => h.2.2)
  have hl : (st.qualityList.map Prod.snd).length = st.pList.length := by rw [e3]; simp
  refine ⟨hl, ?_⟩
  rw [← hl, ← List.toFinset_card_of_nodup nd]
  refine Finset.card_le_card (fun q hq => ?_)
  rw [List.mem_toFinset, e3, List.map_map] at hq
  obtain ⟨p, _, rfl⟩ := List.mem_map.mp hq
  exact hS p _ (hB p)

/-- Ordered: whatever the ends and the threshold, a search lists at most `2 ^ (n - 1)` parameters. -/
theorem countOrdered (fl : FloatLaws F K u) (q : UTM (Quality K)) (n : Nat) (f : Nat → Nat → Quality K) (hq : q.Rep n f)
    (t lo hi : F) (h0 : (0 : K) ≤ FloatP.toK lo) (hlt : (FloatP.toK lo : K) < FloatP.toK hi) (h1 : (FloatP.toK hi : K) ≤ 1)
    (fuel : Nat) (s0 st : PState F K (OPartition F K) _) (h : computeBestPartitions (oOps q) false fuel t lo hi s0 = .ok st) :
    st.pList.length ≤ 2 ^ (n - 1) := by
  obtain ⟨S, hc, hS⟩ := oFinite (F := F) hq
  exact le_trans (curve_aux fl (.ordered q n f hq) h0 hlt h1 h hS).2 hc

/-- Hierarchical: at most `2 ^ nodes`. -/
theorem countHierarchical (fl : FloatLaws F K u) (leaves : Nat) (parents : List Int) (md : HMeta)
    (hmd : RightMeta leaves parents md) (hin : leaves < parents.length) (q : List (Quality K)) (Q : Nat → Quality K)
    (hq : VRep q parents.length Q)
    (t lo hi : F) (h0 : (0 : K) ≤ FloatP.toK lo) (hlt : (FloatP.toK lo : K) < FloatP.toK hi) (h1 : (FloatP.toK hi : K) ≤ 1)
    (fuel : Nat) (s0 st : PState F K (HPartition F K) _) (h : computeBestPartitions (hOps q md) false fuel t lo hi s0 = .ok st) :
    st.pList.length ≤ 2 ^ parents.length := by
  obtain ⟨S, hc, hS⟩ := hFinite (F := F) hmd hin hq
  exact le_trans (curve_aux fl (.hierarchical leaves parents md q Q hmd hin hq) h0 hlt h1 h hS).2 hc

/-- Spatiotemporal: at most `2 ^ (nodes · n²)`. -/
theorem countSpatiotemporal (fl : FloatLaws F K u) (leaves : Nat) (parents : List Int) (md : HMeta)
    (hmd : RightMeta leaves parents md) (n : Nat) (hn0 : 0 < n) (hn : n ≤ 65535) (q : List (UTM (Quality K)))
    (Q : Nat → Nat → Nat → Quality K) (hq : MRep q parents.length n Q)
    (t lo hi : F) (h0 : (0 : K) ≤ FloatP.toK lo) (hlt : (FloatP.toK lo : K) < FloatP.toK hi) (h1 : (FloatP.toK hi : K) ≤ 1)
    (fuel : Nat) (s0 st : PState F K (DPartition F K) _) (h : computeBestPartitions (dOps q md) false fuel t lo hi s0 = .ok st) :
    st.pList.length ≤ 2 ^ (parents.length * n * n) := by
  obtain ⟨S, hc, hS⟩ := dFinite (F := F) hmd hn0 hn hq
  exact le_trans (curve_aux fl (.spatiotemporal leaves parents md n q Q hmd hn0 hn hq) h0 hlt h1 h hS).2 hc

/-- What two searches have in common when their lists do not differ: the points of the quality curve, the partitions
(`same` is the partitions' `operator==`), the area under the curve, and the partition of `getP(P_OPT)` (or its failure). -/
structure SameAnswer (ops : PartOps F K P T) (st st' : PState F K P T) : Prop where
  curve : st.qualityList.map Prod.snd = st'.qualityList.map Prod.snd
  partitions : List.Forall₂ (fun e e' : F × P => ops.same e.2 e'.2 = true) st.partitions st'.partitions
  area : ∃ a : K, computeAUC id st = .ok a ∧ computeAUC id st' = .ok a
  optimum : ∀ randMax : K, (getP randMax 2 st = .error .uninit ∧ getP randMax 2 st' = .error .uninit) ∨
    ∃ p p' X X', getP randMax 2 st = .ok p ∧ getP randMax 2 st' = .ok p' ∧ (p, X) ∈ st.partitions ∧
      (p', X') ∈ st'.partitions ∧ ops.same X X' = true

theorem position_aux {L L' : List F} {A A' : F → Quality K} (d : Quality K → K)
    (hs : L.Pairwise (fun a b => (FloatP.toK a : K) < FloatP.toK b)) (hs' : L'.Pairwise (fun a b => (FloatP.toK a : K) < FloatP.toK b))
    (e : L.map A = L'.map A') {p p' : F} (hp : p ∈ L) (hp' : p' ∈ L')
    (h1 : ∀ x ∈ L, d (A p) ≤ d (A x)) (h2 : ∀ x ∈ L, d (A x) = d (A p) → (FloatP.toK x : K) ≤ FloatP.toK p)
    (h1' : ∀ x ∈ L', d (A' p') ≤ d (A' x)) (h2' : ∀ x ∈ L', d (A' x) = d (A' p') → (FloatP.toK x : K) ≤ FloatP.toK p') :
    A p = A' p' := by
  obtain ⟨i, hi, rfl⟩ := List.getElem_of_mem hp
  obtain ⟨j, hj, rfl⟩ := List.getElem_of_mem hp'
  have hlen : L.length = L'.length := by simpa using congrArg List.length e
  have key : ∀ k (hk : k < L.length) (hk' : k < L'.length), A L[k] = A' L'[k] := by
    intro k hk hk'
    have := congrArg (fun l => l[k]?) e
    simpa [hk, hk'] using this
  have mono : ∀ {M : List F}, M.Pairwise (fun a b => (FloatP.toK a : K) < FloatP.toK b) → ∀ a b (ha : a < M.length) (hb : b < M.length),
      (FloatP.toK M[a] : K) ≤ FloatP.toK M[b] → a ≤ b := by
    intro M hM a b ha hb hle
    by_contra hn
    exact absurd (List.pairwise_iff_getElem.mp hM b a hb ha (by omega)) (not_lt.mpr hle)
  have hd : d (A L[i]) = d (A' L'[j]) := by
    apply le_antisymm
    · have := h1 L[j] (List.getElem_mem _)
      rwa [key j (by omega) hj] at this
    · have := h1' L'[i] (List.getElem_mem _)
      rwa [← key i hi (by omega)] at this
  have x1 := mono hs j i (by omega) hi (h2 L[j] (List.getElem_mem _) (by rw [key j (by omega) hj, hd]))
  have x2 := mono hs' i j (by omega) hj (h2' L'[i] (List.getElem_mem _) (by rw [← key i hi (by omega), hd]))
  have : i = j := by omega
  subst this
  exact key i hi hj

theorem answer_aux (fl : FloatLaws F K u) {ops : PartOps F K P T} (ho : IsPartitioner ops) {t t' lo hi : F}
    (h0 : (0 : K) ≤ FloatP.toK lo) (hlt : (FloatP.toK lo : K) < FloatP.toK hi) (h1 : (FloatP.toK hi : K) ≤ 1)
    {fuel fuel' : Nat} {s0 s0' st st' : PState F K P T} (hc : computeBestPartitions ops false fuel t lo hi s0 = .ok st)
    (hf : computeBestPartitions ops false fuel' t' lo hi s0' = .ok st')
    (hcurve : st.qualityList.map Prod.snd = st'.qualityList.map Prod.snd) : SameAnswer ops st st' := by
  obtain ⟨B, hB, e3, e2⟩ := C45.split_aux fl ho h0 hlt h1 hc
  obtain ⟨B', hB', e3', e2'⟩ := C45.split_aux fl ho h0 hlt h1 hf
  have hq : st.qualityList.map Prod.snd = st.pList.map (fun p => ops.quality (B p)) := by rw [e3, List.map_map]; rfl
  have hq' : st'.qualityList.map Prod.snd = st'.pList.map (fun p => ops.quality (B' p)) := by rw [e3', List.map_map]; rfl
  refine ⟨hcurve, ?_, ?_, ?_⟩
  · rw [e2, e2', List.forall₂_map_left_iff, List.forall₂_map_right_iff]
    rw [hq, hq', ← List.forall₂_eq_eq_eq, List.forall₂_map_left_iff, List.forall₂_map_right_iff] at hcurve
    exact hcurve.imp (fun x y e => C45.identifies ops ho x y _ _ (hB x) (hB' y) e)
  · refine ⟨_, C32.value fl ops ho t lo hi h0 hlt h1 fuel s0 st hc, ?_⟩
    rw [hcurve]
    exact C32.value fl ops ho t' lo hi h0 hlt h1 fuel' s0' st' hf
  · intro randMax
    obtain ⟨o1, o2⟩ := C31.optimum fl ops ho t lo hi h0 hlt h1 fuel s0 st hc randMax
    obtain ⟨o1', o2'⟩ := C31.optimum fl ops ho t' lo hi h0 hlt h1 fuel' s0' st' hf randMax
    have srt := (C28.list fl ops ho t lo hi h0 hlt h1 fuel s0 st hc).2.1
    have srt' := (C28.list fl ops ho t' lo hi h0 hlt h1 fuel' s0' st' hf).2.1
    by_cases ex : ∃ q ∈ st.qualityList.map Prod.snd, C31.dist q ≤ randMax
    · right
      have ex' := ex
      rw [hcurve] at ex'
      obtain ⟨_, hm, hd⟩ := ex
      obtain ⟨x, hx, rfl⟩ := List.mem_map.mp hm
      obtain ⟨_, hm', hd'⟩ := ex'
      obtain ⟨x', hx', rfl⟩ := List.mem_map.mp hm'
      obtain ⟨p, q, a1, a2, a3, a4⟩ := o1 ⟨x, hx, hd⟩
      obtain ⟨p', q', b1, b2, b3, b4⟩ := o1' ⟨x', hx', hd'⟩
      rw [e3] at a2 a3 a4
      rw [e3'] at b2 b3 b4
      simp only [List.mem_map, forall_exists_index, and_imp, forall_apply_eq_imp_iff₂] at a2 a3 a4 b2 b3 b4
      obtain ⟨y, hy, e⟩ := a2
      obtain ⟨rfl, rfl⟩ := Prod.mk.inj e
      obtain ⟨y', hy', e⟩ := b2
      obtain ⟨rfl, rfl⟩ := Prod.mk.inj e
      rw [hq, hq'] at hcurve
      refine ⟨_, _, B y, B' y', a1, b1, by rw [e2]; exact List.mem_map.mpr ⟨_, hy, rfl⟩,
        by rw [e2']; exact List.mem_map.mpr ⟨_, hy', rfl⟩, C45.identifies ops ho y y' _ _ (hB y) (hB' y') ?_⟩
      exact position_aux (K := K) (A := fun p => ops.quality (B p)) (A' := fun p => ops.quality (B' p)) C31.dist srt srt' hcurve hy hy'
        a3 a4 b3 b4
    · left
      push Not at ex
      refine ⟨o2 (fun e he => ex _ (List.mem_map.mpr ⟨e, he, rfl⟩)), o2' (fun e he => ex _ ?_)⟩
      rw [hcurve]
      exact List.mem_map.mpr ⟨e, he, rfl⟩

theorem settles_aux (fl : FloatLaws F K u) {ops : PartOps F K P T} (ho : IsPartitioner ops) {lo hi : F}
    (h0 : (0 : K) ≤ FloatP.toK lo) (hlt : (FloatP.toK lo : K) < FloatP.toK hi) (h1 : (FloatP.toK hi : K) ≤ 1)
    (good : F → Prop) (hex : ∃ t fuel s0 st, good t ∧ computeBestPartitions ops false fuel t lo hi s0 = .ok st) :
    ∃ t0 fuel0 s0 st0, good t0 ∧ computeBestPartitions ops false fuel0 t0 lo hi s0 = .ok st0 ∧
      ∀ t fuel s st, good t → (FloatP.toK t : K) ≤ FloatP.toK t0 → computeBestPartitions ops false fuel t lo hi s = .ok st →
        SameAnswer ops st0 st := by
  classical
  obtain ⟨S, hS⟩ := isPartitioner_finite (F := F) ho
  let Is : Nat → Prop := fun k => ∃ t fuel s0 st, good t ∧ computeBestPartitions ops false fuel t lo hi s0 = .ok st ∧ st.pList.length = k
  obtain ⟨t1, f1, s1, st1, g1, r1⟩ := hex
  have b1 := (curve_aux fl ho h0 hlt h1 r1 hS).2
  have hk := Nat.findGreatest_spec (P := Is) (n := S.card) b1 ⟨t1, f1, s1, st1, g1, r1, rfl⟩
  obtain ⟨t0, f0, s0, st0, g0, r0, hl⟩ := hk
  refine ⟨t0, f0, s0, st0, g0, r0, fun t fuel s st g hle r => ?_⟩
  refine answer_aux fl ho h0 hlt h1 r0 r ((C66.curve fl ops ho t0 t lo hi st0 st ⟨h0, hlt, h1, hle, ⟨_, _, r0⟩, ⟨_, _, r⟩⟩).eq_of_length_le ?_)
  rw [(curve_aux fl ho h0 hlt h1 r0 hS).1, (curve_aux fl ho h0 hlt h1 r hS).1, hl]
  exact Nat.le_findGreatest (curve_aux fl ho h0 hlt h1 r hS).2 ⟨t, fuel, s, st, g, r, rfl⟩

/-- Any rounding of the parameters: if some search with these ends returns, there is a threshold, for which the search returns,
such that every search that returns with a threshold that is not larger gives the same answer. -/
theorem settles (fl : FloatLaws F K u) (ops : PartOps F K P T) (ho : IsPartitioner ops) (lo hi : F)
    (h0 : (0 : K) ≤ FloatP.toK lo) (hlt : (FloatP.toK lo : K) < FloatP.toK hi) (h1 : (FloatP.toK hi : K) ≤ 1)
    (hex : ∃ t fuel s0 st, computeBestPartitions ops false fuel t lo hi s0 = .ok st) :
    ∃ t0 fuel0 s0 st0, computeBestPartitions ops false fuel0 t0 lo hi s0 = .ok st0 ∧
      ∀ t fuel s st, (FloatP.toK t : K) ≤ FloatP.toK t0 → computeBestPartitions ops false fuel t lo hi s = .ok st →
        SameAnswer ops st0 st := by
  obtain ⟨t, fuel, s0, st, h⟩ := hex
  obtain ⟨t0, f0, s0, st0, _, r, hh⟩ := settles_aux fl ho h0 hlt h1 (fun _ => True) ⟨t, fuel, s0, st, trivial, h⟩
  exact ⟨t0, f0, s0, st0, r, fun t fuel s st hle e => hh t fuel s st trivial hle e⟩

end rounded

/-! ## Exact parameters -/

section exact
variable {K P T : Type} [Field K] [LinearOrder K] [IsStrictOrderedRing K]

/-- From the threshold `t0` on a smaller one changes nothing: any two searches that return, with positive thresholds not
above `t0`, give the same answer. -/
def Settled (ops : PartOps K K P T) (lo hi t0 : K) : Prop :=
  ∀ t t' : K, 0 < t → t ≤ t0 → 0 < t' → t' ≤ t0 → ∀ (fuel fuel' : Nat) (s s' st st' : PState K K P T),
    computeBestPartitions ops false fuel t lo hi s = .ok st → computeBestPartitions ops false fuel' t' lo hi s' = .ok st' →
    SameAnswer ops st st'

/-- The value the best partition of the parameter `p` maximises. -/
def score (p : K) (q : Quality K) : K := p * q.gain - (1 - p) * q.loss

theorem gain_aux {A : Type} {p : K} {q : A → Quality K} {L' L : List A} (h : LexLe (wGain p) (wLoss p) q L' L)
    (hs : score p ⟨gainOf q L', lossOf q L'⟩ = score p ⟨gainOf q L, lossOf q L⟩) : gainOf q L' ≤ gainOf q L := by
  rcases h with h | ⟨_, h | h⟩
  · exact absurd hs (ne_of_lt h)
  · exact h.le
  · exact h.1.le

variable [Archimedean K]

theorem returns_aux {ops : PartOps K K P T} (ho : IsPartitioner ops) {lo hi : K} (h0 : 0 ≤ lo) (hlt : lo < hi) (h1 : hi ≤ 1)
    {t : K} (ht : 0 < t) : ∃ fuel st, computeBestPartitions ops false fuel t lo hi PState.empty = .ok st := by
  obtain ⟨N, hN⟩ := C26.terminates (exactLaws K) t ht (by simp; exact ht.le)
  obtain ⟨st, h⟩ := hN ops ho lo hi h0 hlt h1 N le_rfl PState.empty
  exact ⟨N, st, h⟩

/-- There is such a threshold. -/
theorem threshold (ops : PartOps K K P T) (ho : IsPartitioner ops) (lo hi : K) (h0 : 0 ≤ lo) (hlt : lo < hi) (h1 : hi ≤ 1) :
    ∃ t0, 0 < t0 ∧ Settled ops lo hi t0 := by
  obtain ⟨f, st, r⟩ := returns_aux ho h0 hlt h1 one_pos
  obtain ⟨t0, f0, s0, st0, g, r0, h⟩ := settles_aux (exactLaws K) ho h0 hlt h1 (fun t => 0 < t) ⟨1, f, _, st, one_pos, r⟩
  refine ⟨t0, g, fun t t' p1 p2 p3 p4 fuel fuel' s s' st st' e e' => ?_⟩
  exact answer_aux (exactLaws K) ho h0 hlt h1 e e'
    ((h t fuel s st p1 p2 e).curve.symm.trans (h t' fuel' s' st' p3 p4 e').curve)

theorem listed_aux {ops : PartOps K K P T} (ho : IsPartitioner ops) {lo hi t t' : K} (h0 : 0 ≤ lo) (hlt : lo < hi) (h1 : hi ≤ 1)
    {fuel fuel' : Nat} {s s' st st' : PState K K P T} (e : computeBestPartitions ops false fuel t lo hi s = .ok st)
    (e' : computeBestPartitions ops false fuel' t' lo hi s' = .ok st')
    (hc : st.qualityList.map Prod.snd = st'.qualityList.map Prod.snd) {p : K} {X : P} (hX : ops.best p = .ok X)
    (h : ∃ x ∈ st'.partitions, ops.same X x.2 = true) : ∃ x ∈ st.partitions, ops.same X x.2 = true := by
  obtain ⟨B, hB, e3, e2⟩ := C45.split_aux (exactLaws K) ho h0 hlt h1 e
  obtain ⟨B', hB', e3', e2'⟩ := C45.split_aux (exactLaws K) ho h0 hlt h1 e'
  obtain ⟨x, hx, hs⟩ := h
  rw [e2'] at hx
  obtain ⟨r, hr, rfl⟩ := List.mem_map.mp hx
  have hq := isPartitioner_sameQ ho p r X _ hX (hB' r) hs
  have hm : ops.quality X ∈ st'.qualityList.map Prod.snd := by
    rw [e3', List.map_map]
    exact List.mem_map.mpr ⟨r, hr, hq.symm⟩
  rw [← hc, e3, List.map_map] at hm
  obtain ⟨y, hy, hyq⟩ := List.mem_map.mp hm
  refine ⟨(y, B y), by rw [e2]; exact List.mem_map.mpr ⟨y, hy, rfl⟩, C45.identifies ops ho p y _ _ hX (hB y) ?_⟩
  exact hyq.symm

/-- Then every partition that is best at two different parameters of the range is among those found. -/
theorem interval (ops : PartOps K K P T) (ho : IsPartitioner ops) (lo hi t0 : K) (h0 : 0 ≤ lo) (hlt : lo < hi) (h1 : hi ≤ 1)
    (hset : Settled ops lo hi t0) (t : K) (ht : 0 < t) (hle : t ≤ t0) (fuel : Nat) (s st : PState K K P T)
    (e : computeBestPartitions ops false fuel t lo hi s = .ok st)
    (p p' : K) (hp : lo ≤ p) (hpp : p < p') (hp' : p' ≤ hi) (X X' : P) (hX : ops.best p = .ok X) (hX' : ops.best p' = .ok X')
    (hs : ops.same X X' = true) : ∃ x ∈ st.partitions, ops.same X x.2 = true := by
  have hpos : 0 < min t ((p' - p) / 2) := lt_min ht (by linarith)
  obtain ⟨f', st', e'⟩ := returns_aux ho h0 hlt h1 hpos
  have hc := (hset t _ ht hle hpos (le_trans (min_le_left _ _) hle) _ _ _ _ _ _ e e').curve
  refine listed_aux ho h0 hlt h1 e e' hc hX ?_
  exact C27.wideExact ops ho _ lo hi h0 hlt h1 f' _ st' e' p p' hp hp' hpp.le
    (lt_of_le_of_lt (min_le_right _ _) (by linarith)) X X' hX hX' hs

theorem everywhere_aux (ops : PartOps K K P T) (ho : IsPartitioner ops) (lo hi t0 : K) (h0 : 0 ≤ lo) (hlt : lo < hi) (h1 : hi ≤ 1)
    (hset : Settled ops lo hi t0) (t : K) (ht : 0 < t) (hle : t ≤ t0) (fuel : Nat) (s st : PState K K P T)
    (e : computeBestPartitions ops false fuel t lo hi s = .ok st)
    (p : K) (hp : lo ≤ p) (hp' : p ≤ hi) (X : P) (hX : ops.best p = .ok X) :
    (∃ x ∈ st.partitions, ops.same X x.2 = true) ∨
    ∃ x ∈ st.partitions, ∃ y ∈ st.partitions, ops.same x.2 y.2 = false ∧
      score p (ops.quality x.2) = score p (ops.quality X) ∧ score p (ops.quality y.2) = score p (ops.quality X) ∧
      ∃ b C, p < b ∧ b ≤ hi ∧ ops.best b = .ok C ∧ ops.quality y.2 = ops.quality C := by
  classical
  -- the qualities found, a bound on their slopes and on their positive distances from the best
  have hδ : ∀ L : List (Quality K), ∃ δ M : K, 0 < δ ∧ 0 < M ∧ ∀ q ∈ L, |q.gain + q.loss| ≤ M ∧
      (score p q < score p (ops.quality X) → δ ≤ score p (ops.quality X) - score p q) := by
    intro L
    induction L with
    | nil => exact ⟨1, 1, one_pos, one_pos, by simp⟩
    | cons a L ih =>
      obtain ⟨δ, M, d0, M0, h⟩ := ih
      refine ⟨if score p a < score p (ops.quality X) then min δ (score p (ops.quality X) - score p a) else δ,
        max M |a.gain + a.loss|, ?_, lt_max_of_lt_left M0, ?_⟩
      · split_ifs with hc
        · exact lt_min d0 (by linarith)
        · exact d0
      · intro q hq
        have small : (if score p a < score p (ops.quality X) then min δ (score p (ops.quality X) - score p a) else δ) ≤ δ := by
          split_ifs
          · exact min_le_left _ _
          · exact le_rfl
        rcases List.mem_cons.mp hq with rfl | hq
        · refine ⟨le_max_right _ _, fun hc => ?_⟩
          rw [if_pos hc]
          exact min_le_right _ _
        · exact ⟨le_trans (h q hq).1 (le_max_left _ _), fun hc => le_trans small ((h q hq).2 hc)⟩
  obtain ⟨δ, M, d0, M0, hM⟩ := hδ (st.qualityList.map Prod.snd)
  set N : K := M + |(ops.quality X).gain + (ops.quality X).loss| with hN
  have N0 : 0 < N := by have := abs_nonneg ((ops.quality X).gain + (ops.quality X).loss); linarith
  have hpos : 0 < min t (δ / (2 * N)) := lt_min ht (by positivity)
  obtain ⟨f', st', e'⟩ := returns_aux ho h0 hlt h1 hpos
  have hc := (hset t _ ht hle hpos (le_trans (min_le_left _ _) hle) _ _ _ _ _ _ e e').curve
  rcases C27.complete (exactLaws K) ops ho _ lo hi h0 hlt h1 f' _ st' e' p hp hp' X hX with
    h | ⟨a, b, A, C, ha, hap, hpb, hb, hw, eA, eC, hne, lA, lC⟩
  · exact Or.inl (listed_aux ho h0 hlt h1 e e' hc hX h)
  · right
    simp only [exact_toK] at ha hap hpb hb
    have hw' : b - a ≤ δ / (2 * N) := by
      have : ¬ (min t (δ / (2 * N)) < b - a) := by
        intro h
        have : FloatP.lt (min t (δ / (2 * N))) (FloatP.sub b a) = true := decide_eq_true h
        rw [hw] at this
        cases this
      exact le_trans (not_lt.mp this) (min_le_right _ _)
    obtain ⟨x, hx, sx⟩ := listed_aux ho h0 hlt h1 e e' hc eA lA
    obtain ⟨y, hy, sy⟩ := listed_aux ho h0 hlt h1 e e' hc eC lC
    obtain ⟨B, hB, e3, e2⟩ := C45.split_aux (exactLaws K) ho h0 hlt h1 e
    have tie : ∀ {c : K} {D : P} {z : K × P}, ops.best c = .ok D → |p - c| ≤ δ / (2 * N) → z ∈ st.partitions →
        ops.same D z.2 = true → ops.quality z.2 = ops.quality D ∧ score p (ops.quality z.2) = score p (ops.quality X) := by
      intro c D z eD hcd hz hs
      rw [e2] at hz
      obtain ⟨r, hr, rfl⟩ := List.mem_map.mp hz
      have hq := isPartitioner_sameQ ho c r D _ eD (hB r) hs
      refine ⟨hq.symm, ?_⟩
      have hmem : ops.quality D ∈ st.qualityList.map Prod.snd := by
        rw [e3, List.map_map]
        exact List.mem_map.mpr ⟨r, hr, hq.symm⟩
      obtain ⟨m1, m2⟩ := hM _ hmem
      dsimp only
      rw [← hq]
      have o1 := (isPartitioner_curve ho).opt p c X D hX eD
      have o2 := (isPartitioner_curve ho).opt c p D X eD hX
      change p * (ops.quality D).gain - (1 - p) * (ops.quality D).loss ≤ p * (ops.quality X).gain - (1 - p) * (ops.quality X).loss at o1
      change c * (ops.quality X).gain - (1 - c) * (ops.quality X).loss ≤ c * (ops.quality D).gain - (1 - c) * (ops.quality D).loss at o2
      by_contra hn
      have hlt' : score p (ops.quality D) < score p (ops.quality X) := lt_of_le_of_ne o1 hn
      have hd := m2 hlt'
      unfold score at hd
      have hdiff : p * (ops.quality X).gain - (1 - p) * (ops.quality X).loss - (p * (ops.quality D).gain - (1 - p) * (ops.quality D).loss) ≤
          (p - c) * (((ops.quality X).gain + (ops.quality X).loss) - ((ops.quality D).gain + (ops.quality D).loss)) := by
        linarith
      have habs : (p - c) * (((ops.quality X).gain + (ops.quality X).loss) - ((ops.quality D).gain + (ops.quality D).loss)) ≤
          δ / (2 * N) * N := by
        refine le_trans (le_abs_self _) ?_
        rw [abs_mul]
        refine mul_le_mul hcd (le_trans (abs_sub _ _) ?_) (abs_nonneg _) (by positivity)
        rw [hN]
        linarith
      have : δ / (2 * N) * N = δ / 2 := by field_simp
      rw [this] at habs
      linarith
    obtain ⟨qx, tx⟩ := tie eA (by rw [abs_of_pos (by linarith)]; linarith) hx sx
    obtain ⟨qy, ty⟩ := tie eC (by rw [abs_of_neg (by linarith)]; linarith) hy sy
    refine ⟨x, hx, y, hy, ?_, tx, ty, b, C, hpb, hb, eC, qy⟩
    cases hxy : ops.same x.2 y.2 with
    | false => rfl
    | true =>
      exfalso
      have hx' := hx
      have hy' := hy
      rw [e2] at hx' hy'
      obtain ⟨r, _, rfl⟩ := List.mem_map.mp hx'
      obtain ⟨r', _, rfl⟩ := List.mem_map.mp hy'
      have hq := isPartitioner_sameQ ho r r' _ _ (hB r) (hB r') hxy
      have := C45.identifies ops ho a b A C eA eC (by rw [← qx, ← qy]; exact hq)
      rw [hne] at this
      cases this

/-- And for every parameter of the range the best partition is among those found, or two different ones of them are as good
at this parameter. -/
theorem everywhere (ops : PartOps K K P T) (ho : IsPartitioner ops) (lo hi t0 : K) (h0 : 0 ≤ lo) (hlt : lo < hi) (h1 : hi ≤ 1)
    (hset : Settled ops lo hi t0) (t : K) (ht : 0 < t) (hle : t ≤ t0) (fuel : Nat) (s st : PState K K P T)
    (e : computeBestPartitions ops false fuel t lo hi s = .ok st)
    (p : K) (hp : lo ≤ p) (hp' : p ≤ hi) (X : P) (hX : ops.best p = .ok X) :
    (∃ x ∈ st.partitions, ops.same X x.2 = true) ∨
    ∃ x ∈ st.partitions, ∃ y ∈ st.partitions, ops.same x.2 y.2 = false ∧
      score p (ops.quality x.2) = score p (ops.quality X) ∧ score p (ops.quality y.2) = score p (ops.quality X) := by
  rcases everywhere_aux ops ho lo hi t0 h0 hlt h1 hset t ht hle fuel s st e p hp hp' X hX with h | ⟨x, hx, y, hy, a, b, c, _⟩
  · exact Or.inl h
  · exact Or.inr ⟨x, hx, y, hy, a, b, c⟩

theorem all_aux (ops : PartOps K K P T) (ho : IsPartitioner ops)
    (hg : ∀ (p p' : K) (X X' : P), ops.best p = .ok X → ops.best p' = .ok X' → score p (ops.quality X') = score p (ops.quality X) →
      (ops.quality X').gain ≤ (ops.quality X).gain)
    (lo hi t0 : K) (h0 : 0 ≤ lo) (hlt : lo < hi) (h1 : hi ≤ 1)
    (hset : Settled ops lo hi t0) (t : K) (ht : 0 < t) (hle : t ≤ t0) (fuel : Nat) (s st : PState K K P T)
    (e : computeBestPartitions ops false fuel t lo hi s = .ok st)
    (p : K) (hp : lo ≤ p) (hp' : p ≤ hi) (X : P) (hX : ops.best p = .ok X) : ∃ x ∈ st.partitions, ops.same X x.2 = true := by
  rcases everywhere_aux ops ho lo hi t0 h0 hlt h1 hset t ht hle fuel s st e p hp hp' X hX with
    h | ⟨x, hx, y, hy, _, _, ty, b, C, hpb, hb, eC, qy⟩
  · exact h
  · refine ⟨y, hy, ?_⟩
    obtain ⟨B, hB, e3, e2⟩ := C45.split_aux (exactLaws K) ho h0 hlt h1 e
    rw [e2] at hy
    obtain ⟨r, _, rfl⟩ := List.mem_map.mp hy
    dsimp only at *
    refine C45.identifies ops ho p r _ _ hX (hB r) ?_
    rw [qy] at ty ⊢
    have g := hg p b X C hX eC ty
    have o := (isPartitioner_curve ho).opt b p C X eC hX
    change b * (ops.quality X).gain - (1 - b) * (ops.quality X).loss ≤ b * (ops.quality C).gain - (1 - b) * (ops.quality C).loss at o
    unfold score at ty
    have hp0 : 0 ≤ p := le_trans h0 hp
    have hp1 : 0 < 1 - p := by linarith
    -- the losses are ordered like the gains
    have l : (ops.quality C).loss ≤ (ops.quality X).loss := by
      have : 0 ≤ (1 - p) * ((ops.quality X).loss - (ops.quality C).loss) := by
        have := mul_nonneg hp0 (sub_nonneg.mpr g)
        linarith
      have := nonneg_of_mul_nonneg_right this hp1
      linarith
    have : (b - p) * ((ops.quality X).gain + (ops.quality X).loss - ((ops.quality C).gain + (ops.quality C).loss)) ≤ 0 := by linarith
    have : (ops.quality X).gain + (ops.quality X).loss - ((ops.quality C).gain + (ops.quality C).loss) ≤ 0 := by
      by_contra hn
      have := mul_pos (sub_pos.mpr hpb) (not_le.mp hn)
      linarith
    have eg : (ops.quality X).gain = (ops.quality C).gain := by linarith
    have el : (ops.quality X).loss = (ops.quality C).loss := by linarith
    revert eg el
    generalize ops.quality X = q
    generalize ops.quality C = q'
    intro eg el
    cases q; cases q'
    dsimp only at eg el
    rw [eg, el]

/-- Ordered: nothing at all is missing, for every parameter of the range the best partition is among those found. -/
theorem allOrdered (q : UTM (Quality K)) (n : Nat) (f : Nat → Nat → Quality K) (hq : q.Rep n f)
    (lo hi t0 : K) (h0 : 0 ≤ lo) (hlt : lo < hi) (h1 : hi ≤ 1) (hset : Settled (oOps q) lo hi t0)
    (t : K) (ht : 0 < t) (hle : t ≤ t0) (fuel : Nat) (s st : PState K K (OPartition K K) _)
    (e : computeBestPartitions (oOps q) false fuel t lo hi s = .ok st)
    (p : K) (hp : lo ≤ p) (hp' : p ≤ hi) (X : OPartition K K) (hX : oBestPartition q p = .ok X) :
    ∃ x ∈ st.partitions, OPartition.eqOp X x.2 = true := by
  refine all_aux (oOps q) (.ordered q n f hq) ?_ lo hi t0 h0 hlt h1 hset t ht hle fuel s st e p hp hp' X hX
  intro p p' X X' e e' hs
  obtain ⟨R, ds, L, a1, _, a3, _, a5⟩ := oBest_lex hq p
  obtain ⟨R', ds', L', b1, _, b3, _, b5⟩ := oBest_lex hq p'
  obtain rfl := C24.res_aux e a1
  obtain rfl := C24.res_aux e' b1
  change score p X'.quality = score p X.quality at hs
  change X'.quality.gain ≤ X.quality.gain
  rw [a3, b3] at hs ⊢
  exact gain_aux (a5.best ds' L' b5.mem) hs

/-- Spatiotemporal: likewise. -/
theorem allSpatiotemporal (leaves : Nat) (parents : List Int) (md : HMeta)
    (hmd : RightMeta leaves parents md) (n : Nat) (hn0 : 0 < n) (hn : n ≤ 65535) (q : List (UTM (Quality K)))
    (Q : Nat → Nat → Nat → Quality K) (hq : MRep q parents.length n Q)
    (lo hi t0 : K) (h0 : 0 ≤ lo) (hlt : lo < hi) (h1 : hi ≤ 1) (hset : Settled (dOps q md) lo hi t0)
    (t : K) (ht : 0 < t) (hle : t ≤ t0) (fuel : Nat) (s st : PState K K (DPartition K K) _)
    (e : computeBestPartitions (dOps q md) false fuel t lo hi s = .ok st)
    (p : K) (hp : lo ≤ p) (hp' : p ≤ hi) (X : DPartition K K) (hX : dBestPartition q md p = .ok X) :
    ∃ x ∈ st.partitions, DPartition.eqOp X x.2 = true := by
  refine all_aux (dOps q md) (.spatiotemporal leaves parents md n q Q hmd hn0 hn hq) ?_ lo hi t0 h0 hlt h1 hset t ht hle fuel s st e
    p hp hp' X hX
  intro p p' X X' e e' hs
  obtain ⟨R, ds, L, a1, _, a3, _, a5⟩ := dBest_first hmd hq hn0 hn p
  obtain ⟨R', ds', L', b1, _, b3, _, b5⟩ := dBest_first hmd hq hn0 hn p'
  obtain rfl := C24.res_aux e a1
  obtain rfl := C24.res_aux e' b1
  change score p X'.quality = score p X.quality at hs
  change X'.quality.gain ≤ X.quality.gain
  rw [a3, b3] at hs ⊢
  exact gain_aux (a5.best ds' L' b5.mem) hs

end exact

/-! ## Concrete cases -/

/-- The table of `C16`: a search lists at most 4 parameters; there is a positive threshold from which on nothing changes; and it
is not 3/4 (`C66.exRuns`: 1/100 finds a partition more). -/
example : (∀ (t : ℚ) fuel s st, computeBestPartitions (oOps C16.exQ) false fuel t (1 / 4 : ℚ) 1 s = .ok st → st.pList.length ≤ 4) ∧
    (∃ t0 : ℚ, 0 < t0 ∧ Settled (oOps C16.exQ) (1 / 4) 1 t0) ∧ ¬ Settled (oOps C16.exQ) (1 / 4 : ℚ) 1 (3 / 4) := by
  refine ⟨fun t fuel s st h => countOrdered (exactLaws ℚ) _ 3 _ C16.exRep t (1 / 4) 1 (by norm_num) (by norm_num) (by norm_num) fuel s st h,
    threshold (oOps C16.exQ) (.ordered _ 3 _ C16.exRep) (1 / 4) 1 (by norm_num) (by norm_num) (by norm_num), fun h => ?_⟩
  obtain ⟨h1, h2, _⟩ := C66.exRuns
  cases e1 : computeBestPartitions (oOps C16.exQ) false 10 (3 / 4 : ℚ) (1 / 4) 1 PState.empty with
  | error e => rw [e1] at h1; cases h1
  | ok st =>
    cases e2 : computeBestPartitions (oOps C16.exQ) false 10 (1 / 100 : ℚ) (1 / 4) 1 PState.empty with
    | error e => rw [e2] at h2; cases h2
    | ok st' =>
      rw [e1] at h1
      rw [e2] at h2
      have hc := (h _ _ (by norm_num) le_rfl (by norm_num) (by norm_num) _ _ _ _ _ _ e1 e2).curve
      have a := congrArg Prod.snd (Except.ok.inj h1)
      have b := congrArg Prod.snd (Except.ok.inj h2)
      have : ([⟨0, 0⟩, ⟨6, 8⟩] : List (Quality ℚ)) = [⟨0, 0⟩, ⟨2, 1⟩, ⟨6, 8⟩] := a.symm.trans (hc.trans b)
      cases this

/-- Qualities of the seven nodes of a hierarchy for which the root is best at the parameter 1/2 only. -/
def exTie : List (Quality ℚ) := [⟨0, 0⟩, ⟨0, 0⟩, ⟨0, 0⟩, ⟨0, 0⟩, ⟨2, 2⟩, ⟨0, 0⟩, ⟨1, 1⟩]

/-- The second case of `everywhere`, which only hierarchical partitions know: at 1/2 the root is the best partition; the search
from 1/4 finds the partitions below and above, with the qualities (0, 0) and (2, 2), which are as good at 1/2, and not the root. -/
example : ((do
      let md ← mkMeta 4 [4, 4, 5, 5, 6, 6, -1]
      let X ← hBestPartition exTie md (1 / 2 : ℚ)
      let st ← computeBestPartitions (hOps exTie md) false 20 (1 / 1000 : ℚ) (1 / 4) 1 PState.empty
      pure (X.parts.map HPart.h, X.quality, st.partitions.map (fun e => e.2.quality)) : Res _)) =
    .ok ([6], ⟨1, 1⟩, [⟨0, 0⟩, ⟨2, 2⟩]) := by decide +kernel

/-- The theorem applied to it. -/
example : ∃ md, mkMeta 4 [4, 4, 5, 5, 6, 6, -1] = .ok md ∧ ∃ t0 : ℚ, 0 < t0 ∧ Settled (hOps exTie md) (1 / 4) 1 t0 := by
  obtain ⟨md, h, r⟩ := C57.meta_aux
  refine ⟨md, h, threshold _ (.hierarchical 4 _ md exTie (fun i => (exTie[i]?).getD ⟨0, 0⟩) r (by decide) ⟨rfl, fun i hi => ?_⟩) _ _
    (by norm_num) (by norm_num) (by norm_num)⟩
  have : i < exTie.length := hi
  simp [this]

end Lp.C88
