import Verif.Proofs.Summed
import Verif.Proofs.Series
import Verif.Props.C16
import Verif.Props.C19
import Verif.Props.C21

/-!
# C92 — adding series up: the gain never falls, the loss never grows; nothing changes for proportional series

`Summed dom m V m' W group` (`Spec/Summed.lean`): the series of the second data are sums of series of the first, series `k`
going into sum `group k`.  Exact arithmetic of the qualities, any rounding of the weights `p` and `1-p`.
-/

namespace Lp.C92
open Spec
open scoped BigOperators
variable {F : Type} [FloatP F ℝ]

/-- What happens to the quality of a part when series are added up: some amount `d ≥ 0` moves from the loss to the gain; none
moves exactly when the series added up are proportional on the part. -/
def Moves (proportional : Prop) (q q' : Quality ℝ) : Prop :=
  ∃ d : ℝ, 0 ≤ d ∧ q' = ⟨q.gain + d, q.loss - d⟩ ∧ (d = 0 ↔ proportional)

theorem moves_aux {ι : Type} {m m' : Nat} {V W : Nat → ι → ℝ} {dom : ι → Prop} {group : Nat → Nat}
    (h : Summed dom m V m' W group) {s : Finset ι} (hs : ∀ x ∈ s, dom x) (hv : ∀ k < m, ∀ x ∈ s, 0 ≤ V k x) :
    Moves (AllProportional s m V group) (entQ m V s) (entQ m' W s) := by
  obtain ⟨h1, h2, h3⟩ := summed_entQ h hs hv
  refine ⟨(entQ m' W s).gain - (entQ m V s).gain, by linarith, ?_, ?_⟩
  · obtain ⟨g, hg⟩ : ∃ g, g = entQ m' W s := ⟨_, rfl⟩
    rw [← hg] at h2 ⊢
    obtain ⟨g1, g2⟩ := g
    simp only [Quality.mk.injEq] at h2 ⊢
    constructor <;> linarith
  · rw [← h3, sub_eq_zero, eq_comm]

theorem weights_aux {u : ℝ} (fl : FloatLaws F ℝ u) {p : F} (h0 : (0 : ℝ) ≤ FloatP.toK p) (h1 : (FloatP.toK p : ℝ) ≤ 1) :
    (0 : ℝ) ≤ FloatP.toK p + FloatP.toK (FloatP.oneSub p) := by
  rcases eq_or_lt_of_le h1 with h | h
  · rw [fl.oneSub_one p h]; linarith
  · have := fl.oneSub_pos p h
    linarith

theorem moves_value_aux {A : Type} {a b : ℝ} (hab : 0 ≤ a + b) {q q' : A → Quality ℝ} {pr : A → Prop} {L : List A}
    (h : ∀ r ∈ L, Moves (pr r) (q r) (q' r)) : valueOf a b q L ≤ valueOf a b q' L := by
  refine value_shift hab fun r hr => ?_
  obtain ⟨d, h1, h2, _⟩ := h r hr
  rw [h2]
  exact ⟨by linarith, by dsimp only; ring⟩

theorem moves_same_aux {pr : Prop} {q q' : Quality ℝ} (h : Moves pr q q') (hp : pr) : q' = q := by
  obtain ⟨d, _, h2, h3⟩ := h
  rw [h2, h3.mpr hp, add_zero, sub_zero]

/-- Ordered data. -/
theorem ordered {u : ℝ} (fl : FloatLaws F ℝ u) (v v' : OValues ℝ) (m m' n : Nat) (V W : Nat → Nat → ℝ) (group : Nat → Nat)
    (hv : OData v m n V) (hv' : OData v' m' n W) (hn : n ≤ 65535) (h0 : ∀ k i, k < m → i < n → 0 ≤ V k i)
    (hs : Summed (fun i => i < n) m V m' W group) :
    ∃ q q' : UTM (Quality ℝ),
      (OQualities.ofValues v).computeQualities = .ok ⟨some v, some q⟩ ∧
      (OQualities.ofValues v').computeQualities = .ok ⟨some v', some q'⟩ ∧
      (∀ i j, i ≤ j → j < n → ∃ a b, q.get i j = .ok a ∧ q'.get i j = .ok b ∧
        Moves (AllProportional (Finset.Icc i j) m V group) a b) ∧
      (∀ p : F, (0 : ℝ) ≤ FloatP.toK p → (FloatP.toK p : ℝ) ≤ 1 →
        ∃ P P', oBestPartition q p = .ok P ∧ oBestPartition q' p = .ok P' ∧ worth p P.quality ≤ worth p P'.quality) ∧
      (AllProportional (Finset.range n) m V group → q' = q) := by
  have hW : ∀ k i, k < m' → i < n → 0 ≤ W k i := fun k i hk hi => by
    rw [hs.total k i hk hi]
    exact Finset.sum_nonneg fun j hj => h0 j i (Finset.mem_range.mp (Finset.mem_filter.mp hj).1) hi
  obtain ⟨q, e, h⟩ := oq_object hv hn h0
  obtain ⟨q', e', h'⟩ := oq_object hv' hn hW
  have hm : ∀ i j, j < n → Moves (AllProportional (oCells (i, j)) m V group) (entQ m V (oCells (i, j)))
      (entQ m' W (oCells (i, j))) := fun i j hj =>
    moves_aux hs (fun x hx => by
      simp only [oCells, Finset.mem_Icc] at hx
      omega) (nonneg_oCells h0 hj)
  refine ⟨q, q', e, e', fun i j hij hj => ⟨_, _, h.get hij hj, h'.get hij hj, hm i j hj⟩, fun p hp0 hp1 => ?_, fun hp => ?_⟩
  · obtain ⟨P, L, a1, a2, _, a4, _⟩ := C16.optimal q n _ h p
    obtain ⟨P', L', b1, _, _, b4, b5⟩ := C16.optimal q' n _ h' p
    refine ⟨P, P', a1, b1, ?_⟩
    have hle : valueOf (FloatP.toK p) (FloatP.toK (FloatP.oneSub p)) (fun I : Nat × Nat => entQ m' W (oCells (I.1, I.2))) L ≤
        valueOf (FloatP.toK p) (FloatP.toK (FloatP.oneSub p)) (fun I : Nat × Nat => entQ m' W (oCells (I.1, I.2))) L' := by
      rcases b5 L a2 with k | k
      · exact le_of_lt k
      · exact le_of_eq k.1
    have hmv := moves_value_aux (weights_aux fl hp0 hp1) (L := L) (fun I hI => hm I.1 I.2 (a2.bounds I hI).2.2)
    unfold worth
    rw [a4, b4]
    exact le_trans hmv hle
  · refine (h.unique (h'.congr fun i j hij hj => ?_)).symm
    refine moves_same_aux (hm i j hj) fun a b ha hb hab x hx y hy => ?_
    simp only [oCells, Finset.mem_Icc] at hx hy
    exact hp a b ha hb hab x (Finset.mem_range.mpr (by omega)) y (Finset.mem_range.mpr (by omega))

/-- Hierarchical data. -/
theorem hierarchical (leaves : Nat) (parents : List Int) {u : ℝ} (fl : FloatLaws F ℝ u) (v v' : HValues ℝ)
    (hmd : RightMeta leaves parents v.md) (hmd' : v'.md = v.md) (hlt : leaves < parents.length) (m m' : Nat)
    (V W : Nat → Nat → ℝ) (group : Nat → Nat) (hv : HData v m leaves V) (hv' : HData v' m' leaves W)
    (h0 : ∀ k h, k < m → h < leaves → 0 ≤ V k h) (hs : Summed (fun h => h < leaves) m V m' W group) :
    ∃ q q' : List (Quality ℝ),
      (HQualities.ofValues v).computeQualities = .ok ⟨some v, some q, v.md⟩ ∧
      (HQualities.ofValues v').computeQualities = .ok ⟨some v', some q', v.md⟩ ∧
      (∀ h, h < parents.length → ∃ a b, q[h]? = some a ∧ q'[h]? = some b ∧
        Moves (AllProportional (leavesUnder leaves parents h) m V group) a b) ∧
      (∀ p : F, (0 : ℝ) ≤ FloatP.toK p → (FloatP.toK p : ℝ) ≤ 1 →
        ∃ P P', hBestPartition q v.md p = .ok P ∧ hBestPartition q' v.md p = .ok P' ∧ worth p P.quality ≤ worth p P'.quality) ∧
      (AllProportional (Finset.range leaves) m V group → q' = q) := by
  have hW : ∀ k i, k < m' → i < leaves → 0 ≤ W k i := fun k i hk hi => by
    rw [hs.total k i hk hi]
    exact Finset.sum_nonneg fun j hj => h0 j i (Finset.mem_range.mp (Finset.mem_filter.mp hj).1) hi
  obtain ⟨q, e, h⟩ := hq_object hmd hlt hv h0
  obtain ⟨q', e', h'⟩ := hq_object (by rw [hmd']; exact hmd) hlt hv' hW
  rw [hmd'] at e'
  have hm : ∀ a, Moves (AllProportional (leavesUnder leaves parents a) m V group) (entQ m V (leavesUnder leaves parents a))
      (entQ m' W (leavesUnder leaves parents a)) := fun a =>
    moves_aux hs (fun x hx => (mem_leavesUnder.mp hx).1) (nonneg_hCells h0)
  refine ⟨q, q', e, e', fun a ha => ⟨_, _, h.cell a ha, h'.cell a ha, hm a⟩, fun p hp0 hp1 => ?_, fun hp => ?_⟩
  · obtain ⟨P, L, a1, a2, _, a4, _⟩ := C19.optimal leaves parents v.md hmd hlt q _ h p
    obtain ⟨P', L', b1, _, _, b4, b5⟩ := C19.optimal leaves parents v.md hmd hlt q' _ h' p
    refine ⟨P, P', a1, b1, ?_⟩
    have hmv := moves_value_aux (weights_aux fl hp0 hp1) (L := L) (fun I _ => hm I)
    unfold worth
    rw [a4, b4]
    exact le_trans hmv (b5 L a2).1
  · refine (h.unique (h'.congr fun a _ => ?_)).symm
    refine moves_same_aux (hm a) fun j k hj hk hjk x hx y hy => ?_
    exact hp j k hj hk hjk x (Finset.mem_range.mpr (mem_leavesUnder.mp hx).1) y (Finset.mem_range.mpr (mem_leavesUnder.mp hy).1)

/-- Spatiotemporal data. -/
theorem spatiotemporal (leaves : Nat) (parents : List Int) {u : ℝ} (fl : FloatLaws F ℝ u) (v v' : DValues ℝ)
    (hmd : RightMeta leaves parents v.md) (hmd' : v'.md = v.md) (hlt : leaves < parents.length) (m m' n : Nat) (hn0 : 0 < n)
    (hn : n ≤ 65535) (hb : leaves * n < 2147483648) (V W : Nat → Nat × Nat → ℝ) (group : Nat → Nat) (hv : DData v m leaves n V)
    (hv' : DData v' m' leaves n W) (h0 : ∀ k h x, k < m → h < leaves → x < n → 0 ≤ V k (h, x))
    (hs : Summed (fun x => x.1 < leaves ∧ x.2 < n) m V m' W group) :
    ∃ q q' : List (UTM (Quality ℝ)),
      (DQualities.ofValues v).computeQualities = .ok ⟨some v, some q, v.md⟩ ∧
      (DQualities.ofValues v').computeQualities = .ok ⟨some v', some q', v.md⟩ ∧
      (∀ h i j, h < parents.length → i ≤ j → j < n → ∃ a b, mget q h i j = .ok a ∧ mget q' h i j = .ok b ∧
        Moves (AllProportional (leavesUnder leaves parents h ×ˢ Finset.Icc i j) m V group) a b) ∧
      (∀ p : F, (0 : ℝ) ≤ FloatP.toK p → (FloatP.toK p : ℝ) ≤ 1 →
        ∃ P P', dBestPartition q v.md p = .ok P ∧ dBestPartition q' v.md p = .ok P' ∧ worth p P.quality ≤ worth p P'.quality) ∧
      (AllProportional (Finset.range leaves ×ˢ Finset.range n) m V group → q' = q) := by
  have hW : ∀ k h x, k < m' → h < leaves → x < n → 0 ≤ W k (h, x) := fun k h x hk hh hx => by
    rw [hs.total k (h, x) hk ⟨hh, hx⟩]
    exact Finset.sum_nonneg fun j hj => h0 j h x (Finset.mem_range.mp (Finset.mem_filter.mp hj).1) hh hx
  obtain ⟨q, e, h⟩ := dq_object hmd hlt hn hb hv h0
  obtain ⟨q', e', h'⟩ := dq_object (by rw [hmd']; exact hmd) hlt hn hb hv' hW
  rw [hmd'] at e'
  have hin : ∀ a i j, j < n → ∀ x ∈ dCells leaves parents ⟨a, i, j⟩, x.1 < leaves ∧ x.2 < n := by
    intro a i j hj x hx
    simp only [dCells, Finset.mem_product, mem_leavesUnder, Finset.mem_Icc] at hx
    exact ⟨hx.1.1, by omega⟩
  have hm : ∀ a i j, j < n → Moves (AllProportional (dCells leaves parents ⟨a, i, j⟩) m V group)
      (entQ m V (dCells leaves parents ⟨a, i, j⟩)) (entQ m' W (dCells leaves parents ⟨a, i, j⟩)) := fun a i j hj =>
    moves_aux hs (hin a i j hj) (nonneg_dCells h0 hj)
  refine ⟨q, q', e, e', fun a i j ha hij hj => ⟨_, _, h.get ha hij hj, h'.get ha hij hj, hm a i j hj⟩, fun p hp0 hp1 => ?_,
    fun hp => ?_⟩
  · obtain ⟨P, L, a1, a2, a3, _, a4, _⟩ := C21.optimal leaves parents v.md hmd n hn0 hn q _ h p
    obtain ⟨P', L', b1, _, _, _, b4, b5⟩ := C21.optimal leaves parents v.md hmd n hn0 hn q' _ h' p
    refine ⟨P, P', a1, b1, ?_⟩
    have hle : valueOf (FloatP.toK p) (FloatP.toK (FloatP.oneSub p))
        (fun r : Rect => entQ m' W (dCells leaves parents ⟨r.node, r.first, r.last⟩)) L ≤
        valueOf (FloatP.toK p) (FloatP.toK (FloatP.oneSub p))
        (fun r : Rect => entQ m' W (dCells leaves parents ⟨r.node, r.first, r.last⟩)) L' := by
      rcases b5 L a2 a3 with k | k
      · exact le_of_lt k
      · exact le_of_eq k.1
    have hmv := moves_value_aux (weights_aux fl hp0 hp1) (L := L) (fun r hr => hm r.node r.first r.last (a2.1 r hr).2.2)
    unfold worth
    rw [a4, b4]
    exact le_trans hmv hle
  · refine (h.unique (h'.congr fun a i j _ _ hj => ?_)).symm
    refine moves_same_aux (hm a i j hj) fun k l hk hl hkl x hx y hy => ?_
    have hx := hin a i j hj x hx
    have hy := hin a i j hj y hy
    exact hp k l hk hl hkl x (by simp [hx.1, hx.2]) y (by simp [hy.1, hy.2])

theorem two_aux {L : List (Nat × Nat)} (h : Tiles 0 2 L) : L = [(0, 1)] ∨ L = [(0, 0), (1, 1)] := by
  cases h with
  | @cons a b c L h1 h2 h3 =>
    obtain rfl | rfl : c = 0 ∨ c = 1 := by omega
    · right
      cases h3 with
      | @cons a b c L h1 h2 h3 =>
        obtain rfl : c = 1 := by omega
        cases h3 with
        | nil => rfl
        | cons h1 h2 => omega
    · left
      cases h3 with
      | nil => rfl
      | cons h1 h2 => omega

/-- The series `1 0` and `0 1` of two slices. -/
def exV (k i : Nat) : ℝ := if k = i then 1 else 0

theorem exSummed_aux : Summed (fun i => i < 2) 2 exV 1 (fun _ _ => 1) (fun _ => 0) where
  goes := fun _ _ => by omega
  total := fun j x hj hx => by
    obtain rfl : j = 0 := by omega
    obtain rfl | rfl : x = 0 ∨ x = 1 := by omega
    · simp [exV, Finset.sum_range_succ]
    · simp [exV, Finset.sum_range_succ]

theorem exNonneg_aux (k i : Nat) : 0 ≤ exV k i := by unfold exV; split <;> norm_num

/-- The series `1 0` and `0 1` at parameter `1/2`: kept apart, they gain nothing from aggregation and stay in two parts; their
sum `1 1` loses nothing and becomes one part. -/
theorem hides : ∃ (q q' : UTM (Quality ℝ)) (P P' : OPartition ℝ ℝ),
    (OQualities.ofValues (OValuesN2.ofVec ([[1, 0], [0, 1]] : List (List ℝ))).toOValues).computeQualities =
      .ok ⟨some (OValuesN2.ofVec [[1, 0], [0, 1]]).toOValues, some q⟩ ∧
    (OQualities.ofValues (OValuesN1.ofVec ([1, 1] : List ℝ)).toOValues).computeQualities =
      .ok ⟨some (OValuesN1.ofVec [1, 1]).toOValues, some q'⟩ ∧
    q.get 0 1 = .ok ⟨0, 2⟩ ∧ q'.get 0 1 = .ok ⟨2, 0⟩ ∧
    oBestPartition q (1 / 2 : ℝ) = .ok P ∧ oBestPartition q' (1 / 2 : ℝ) = .ok P' ∧
    P.parts.map (fun x => (x.start, x.end)) = [(0, 0), (1, 1)] ∧ P'.parts.map (fun x => (x.start, x.end)) = [(0, 1)] := by
  have d1 := (OValuesN2.ofVec_holds (V := 2) (O := 2) (by norm_num) (fun x => exV x.1 x.2)).data
  have t1 : table2 2 2 (fun x => exV x.1 x.2) = [[1, 0], [0, 1]] := by
    simp [table2, table1, List.range_succ, exV]
  have d2 := (OValuesN1.ofVec_holds (O := 2) (fun _ => (1 : ℝ))).data
  have t2 : table1 2 (fun _ => (1 : ℝ)) = [1, 1] := by simp [table1, List.range_succ]
  rw [t1] at d1
  rw [t2] at d2
  obtain ⟨q, e, h⟩ := oq_object d1 (by norm_num) (fun k i _ _ => exNonneg_aux k i)
  obtain ⟨q', e', h'⟩ := oq_object d2 (by norm_num) (fun k i _ _ => by norm_num)
  have c00 : oCells (0, 0) = {0} := by decide
  have c11 : oCells (1, 1) = {1} := by decide
  have c01 : oCells (0, 1) = {0, 1} := by decide
  have g01 : entQ 2 exV (oCells (0, 1)) = ⟨0, 2⟩ := by
    rw [c01]
    simp [entQ, gainSeries, lossSeries, lossOver, gainOver, xlog2, exV, Finset.sum_range_succ]
    norm_num
    norm_cast
  have g01' : entQ 1 (fun _ _ => (1 : ℝ)) (oCells (0, 1)) = ⟨2, 0⟩ := by
    rw [c01]
    simp [entQ, gainSeries, lossSeries, lossOver, gainOver, xlog2]
  have z : ∀ (m : Nat) (V : Nat → Nat → ℝ) (x : Nat), entQ m V {x} = ⟨0, 0⟩ := fun m V x => by
    unfold entQ
    rw [gainSeries_single, lossSeries_single]
  obtain ⟨P, L, a1, a2, a3, _, a5⟩ := C16.optimal q 2 _ h (1 / 2 : ℝ)
  obtain ⟨P', L', b1, b2, b3, _, b5⟩ := C16.optimal q' 2 _ h' (1 / 2 : ℝ)
  refine ⟨q, q', P, P', e, e', (h.get (by norm_num) (by norm_num)).trans (by rw [← g01]),
    (h'.get (by norm_num) (by norm_num)).trans (by rw [← g01']), a1, b1, ?_, ?_⟩
  · rcases two_aux a2 with rfl | rfl
    · exfalso
      have k := a5 [(0, 0), (1, 1)] (.cons (by norm_num) (by norm_num) (.cons (by norm_num) (by norm_num) (.nil 2)))
      simp only [valueOf, gainOf_cons, gainOf_nil, lossOf_cons, lossOf_nil, c00, c11, z] at k
      erw [g01] at k
      norm_num at k
    · rw [a3]; rfl
  · rcases two_aux b2 with rfl | rfl
    · rw [b3]; rfl
    · exfalso
      have k := b5 [(0, 1)] (.cons (by norm_num) (by norm_num) (.nil 2))
      simp only [valueOf, gainOf_cons, gainOf_nil, lossOf_cons, lossOf_nil, c00, c11, z] at k
      erw [g01'] at k
      norm_num at k

/-- The hypotheses are met by the series `1 0` and `0 1` and their sum. -/
example : ∃ (w w' : Option (OValues ℝ)) (q q' : UTM (Quality ℝ)),
    (OQualities.ofValues (OValuesN2.ofVec ([[1, 0], [0, 1]] : List (List ℝ))).toOValues).computeQualities = .ok ⟨w, some q⟩ ∧
    (OQualities.ofValues (OValuesN1.ofVec ([1, 1] : List ℝ)).toOValues).computeQualities = .ok ⟨w', some q'⟩ ∧
    ∀ p : ℝ, 0 ≤ p → p ≤ 1 → ∃ P P' : OPartition ℝ ℝ, oBestPartition q p = .ok P ∧ oBestPartition q' p = .ok P' ∧
      worth p P.quality ≤ worth p P'.quality := by
  have d1 := (OValuesN2.ofVec_holds (V := 2) (O := 2) (by norm_num) (fun x => exV x.1 x.2)).data
  have t1 : table2 2 2 (fun x => exV x.1 x.2) = [[1, 0], [0, 1]] := by
    simp [table2, table1, List.range_succ, exV]
  have d2 := (OValuesN1.ofVec_holds (O := 2) (fun _ => (1 : ℝ))).data
  have t2 : table1 2 (fun _ => (1 : ℝ)) = [1, 1] := by simp [table1, List.range_succ]
  rw [t1] at d1
  rw [t2] at d2
  obtain ⟨q, q', e, e', _, h, _⟩ := ordered (exactLaws ℝ) _ _ 2 1 2 _ _ _ d1 d2 (by norm_num) (fun k i _ _ => exNonneg_aux k i)
    exSummed_aux
  exact ⟨_, _, q, q', e, e', fun p h0 h1 => h p h0 h1⟩

/-- Proportional series: any series `x`, taken once and taken three times more, and four times `x`. -/
example (s : Finset Nat) (x : Nat → ℝ) :
    Summed (fun _ => True) 2 (fun k i => if k = 0 then x i else 3 * x i) 1 (fun _ i => 4 * x i) (fun _ => 0) ∧
    AllProportional s 2 (fun k i => if k = 0 then x i else 3 * x i) (fun _ => 0) := by
  refine ⟨⟨fun _ _ => by norm_num, fun j i hj _ => ?_⟩, fun j k _ _ _ a _ b _ => ?_⟩
  · obtain rfl : j = 0 := by omega
    simp [Finset.sum_range_succ]
    ring
  · dsimp only
    split <;> split <;> ring

end Lp.C92
