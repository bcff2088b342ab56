import Verif.Proofs.RBinding
import Verif.Props.C45
import Verif.Props.C33
import Verif.Props.C31
import Verif.Props.C26
import Verif.Props.C21
import Verif.Props.C03
import Verif.Props.C12
import Verif.Spec.BinaryReal

/-!
# C49 — the functions called from R, end to end

`RightSheet` (`Spec/Sheet.lean`) says what a right result is: the rows of each parameter are a partition numbered from 1,
with the relative entropy gain and loss of the data, optimal for the parameter, and `Qualities`, `POpt` and `AUC` agree with
it.  `rArray d0 d1 d2 f` is the R array with value `f (i, j, k)` at the position `i, j, k`.
-/

namespace Lp.C49
open Spec
variable {F : Type} [FloatP F ℝ] {u : ℝ}

theorem sum_aux {a b : Nat} (g : Nat → Nat → ℝ) :
    ∑ k ∈ Finset.range (a * b), g (k / b) (k % b) = ∑ i ∈ Finset.range a, ∑ j ∈ Finset.range b, g i j := by
  induction a with
  | zero => simp
  | succ a ih =>
    rw [Nat.succ_mul, Finset.sum_range_add, ih, Finset.sum_range_succ]
    congr 1
    apply Finset.sum_congr rfl
    intro x hx
    rw [Finset.mem_range] at hx
    have hb : 0 < b := by omega
    rw [Nat.mul_comm a b, Nat.mul_add_div hb, Nat.div_eq_of_lt hx, Nat.mul_add_mod, Nat.mod_eq_of_lt hx, Nat.add_zero]

theorem series_aux {ι : Type} (a b : Nat) (v : Nat → Nat → ι → ℝ) (s : Finset ι) :
    gainSeries (a * b) s (fun k => v (k / b) (k % b)) = gain3 a b v s ∧
    lossSeries (a * b) s (fun k => v (k / b) (k % b)) = loss3 a b v s :=
  ⟨sum_aux (fun i j => gainOver s (v i j)), sum_aux (fun i j => lossOver s (v i j))⟩

/-- What the search returns, from what `computeBestPartition` returns. -/
theorem sheet_aux (fl : FloatLaws F ℝ u) (randMax : ℝ) (hr : 2 ≤ randMax) (t : F) (ht : (0 : ℝ) < FloatP.toK t)
    (hu : 11 * u ≤ FloatP.toK t) :
    ∃ N : Nat, ∀ {P T A R : Type} (ops : PartOps F ℝ P (F × T)), IsPartitioner ops →
      ∀ (rowFn : F × T → R) (param : R → F) (part rival : List A → Prop) (quality : A → Quality ℝ) (row : F → A → R),
      (∀ p P, ∀ r ∈ ops.rows p P, r.1 = p) → (∀ x, param (rowFn x) = x.1) →
      (∀ p, (0 : ℝ) ≤ FloatP.toK p → (FloatP.toK p : ℝ) ≤ 1 → ∃ P L, ops.best p = .ok P ∧ part L ∧
        (ops.rows p P).map rowFn = L.map (row p) ∧ ops.quality P = ⟨gainOf quality L, lossOf quality L⟩ ∧
        (0 ≤ gainOf quality L ∧ gainOf quality L ≤ 1 ∧ 0 ≤ lossOf quality L ∧ lossOf quality L ≤ 1) ∧
        ∀ L', rival L' → valueOf (FloatP.toK p) (FloatP.toK (FloatP.oneSub p)) quality L' ≤
          valueOf (FloatP.toK p) (FloatP.toK (FloatP.oneSub p)) quality L) →
      (∃ L, rival L ∧ lossOf quality L ≤ 0) →
      ∀ fuel, N ≤ fuel → ∃ r, rSearch ops rowFn false fuel randMax id t = .ok r ∧
        RightSheet param part rival quality row r := by
  obtain ⟨N, hN⟩ := C26.terminates fl t ht hu
  refine ⟨N, ?_⟩
  intro P T A R ops ho rowFn param part rival quality row hrows hparam hbest hfin fuel hf
  have z0 : (FloatP.toK (FloatP.zero : F) : ℝ) = 0 := fl.zero
  have z1 : (FloatP.toK (FloatP.oneSub (FloatP.zero : F)) : ℝ) = 1 := fl.oneSub_zero _ z0
  have hlt : (FloatP.toK (FloatP.zero : F) : ℝ) < FloatP.toK (FloatP.oneSub (FloatP.zero : F)) := by rw [z0, z1]; norm_num
  obtain ⟨st, hst⟩ := hN ops ho FloatP.zero (FloatP.oneSub FloatP.zero) z0.ge hlt z1.le fuel hf PState.empty
  obtain ⟨l1, l2, l3, l4, l5, l6, l7, l8⟩ := C28.list fl ops ho t _ _ z0.ge hlt z1.le fuel _ st hst
  obtain ⟨r1, r2, r3⟩ := C33.rows_aux ops ho fl hrows t _ _ z0.ge hlt z1.le fuel _ st hst
  have keys : st.qualityList.map Prod.fst = st.pList := by rw [r2, l4]
  have inR : ∀ e ∈ st.qualityList, (0 : ℝ) ≤ FloatP.toK e.1 ∧ (FloatP.toK e.1 : ℝ) ≤ 1 := by
    intro e he
    have := l3 e.1 (keys ▸ List.mem_map_of_mem he)
    rwa [z0, z1] at this
  have unit : ∀ e ∈ st.qualityList, 0 ≤ e.2.gain ∧ e.2.gain ≤ 1 ∧ 0 ≤ e.2.loss ∧ e.2.loss ≤ 1 := by
    intro e he
    obtain ⟨X, x1, x2, _⟩ := r3 e he
    obtain ⟨X', L, b1, _, _, b4, b5, _⟩ := hbest e.1 (inR e he).1 (inR e he).2
    obtain rfl : X = X' := Except.ok.inj (x1.symm.trans b1)
    rw [x2, b4]
    exact b5
  obtain ⟨a, a1, a2, a3⟩ := C45.half fl ops ho t _ _ z0.ge hlt z1.le fuel _ st hst unit (by
    intro X hX
    obtain ⟨X', L, b1, _, _, b4, b5, b6⟩ := hbest FloatP.zero z0.ge (by rw [z0]; norm_num)
    obtain rfl : X = X' := Except.ok.inj (hX.symm.trans b1)
    obtain ⟨L0, c1, c2⟩ := hfin
    have := b6 L0 c1
    unfold valueOf at this
    rw [z0, z1] at this
    rw [b4]
    linarith)
  obtain ⟨e0, he0⟩ : ∃ e, e ∈ st.qualityList := by
    cases hq : st.qualityList with
    | nil => rw [← keys, hq] at l1; simp at l1
    | cons e l => exact ⟨e, by simp⟩
  have d0 : C31.dist e0.2 ≤ randMax := by
    obtain ⟨h1, h2, h3, h4⟩ := unit e0 he0
    unfold C31.dist
    nlinarith
  obtain ⟨p, q, o1, o2, o3, _⟩ := (C31.optimum fl ops ho t _ _ z0.ge hlt z1.le fuel _ st hst randMax).1 ⟨e0, he0, d0⟩
  refine ⟨_, by unfold rSearch; rw [hst]; simp only [okBind]; rw [o1]; simp only [okBind]; rw [a1]; simp only [okBind, pureOk]; rfl, ?_⟩
  have kq : (st.qualityList.map (fun e => (⟨e.1, e.2.gain, e.2.loss⟩ : QRow F ℝ))).map QRow.parameter = st.pList := by
    rw [List.map_map, ← keys]; rfl
  have filt : ∀ p, rowsAt param p (st.tuples.map rowFn) = (C33.rowsOf p st.tuples).map rowFn := by
    intro p
    unfold rowsAt C33.rowsOf
    rw [List.filter_map]
    congr 1
    apply List.filter_congr
    intro x _
    simp [hparam]
  refine ⟨?_, ?_, ?_, ?_, ?_, ?_, ?_, ⟨a2, a3⟩⟩
  · exact ⟨FloatP.zero, by rw [kq, l1], z0⟩
  · rw [kq]; exact l2
  · intro e hm
    obtain ⟨e, he, rfl⟩ := List.mem_map.mp hm
    exact inR e he
  · dsimp only
    rw [List.flatMap_map]
    simp only [filt]
    have hs : st.tuples = st.qualityList.flatMap (fun e => C33.rowsOf e.1 st.tuples) := by
      conv_lhs => rw [r1]
      rw [l6, List.flatMap_map]
      apply List.flatMap_congr
      intro e he
      obtain ⟨X, x1, _, x3⟩ := r3 (e.1, ops.quality e.2) (by rw [l6]; exact List.mem_map_of_mem (f := fun e => (e.1, ops.quality e.2)) he)
      have := l5 e he
      obtain rfl : X = e.2 := Except.ok.inj (x1.symm.trans this)
      exact x3.symm
    conv_lhs => rw [hs]
    rw [List.map_flatMap]
  · intro e hm
    obtain ⟨e, he, rfl⟩ := List.mem_map.mp hm
    obtain ⟨X, x1, x2, x3⟩ := r3 e he
    obtain ⟨X', L, b1, b2, b3, b4, b5, b6⟩ := hbest e.1 (inR e he).1 (inR e he).2
    obtain rfl : X = X' := Except.ok.inj (x1.symm.trans b1)
    have hu := unit e he
    refine ⟨L, b2, by dsimp only; rw [filt, x3, b3], ?_, ?_, hu.1, hu.2.1, hu.2.2.1, hu.2.2.2, ?_⟩
    · dsimp only; rw [x2, b4]
    · dsimp only; rw [x2, b4]
    · intro L' hL'
      have := b6 L' hL'
      dsimp only
      rw [x2, b4]
      exact this
  · rw [List.pairwise_map]
    have := C45.increasing fl ops ho t _ _ z0.ge hlt z1.le fuel _ st hst
    rw [List.pairwise_map] at this
    refine this.imp ?_
    rintro e e' ⟨h1, h2, h3⟩
    refine ⟨h1, h2, ?_⟩
    by_contra hc
    push Not at hc
    apply h3
    cases he : e.2; cases he' : e'.2
    rw [he, he'] at hc
    simp only at hc
    rw [hc.1, hc.2]
  · refine ⟨_, List.mem_map_of_mem o2, rfl, ?_⟩
    intro e' hm
    obtain ⟨e', he', rfl⟩ := List.mem_map.mp hm
    exact o3 e' he'

theorem rel_aux {ι A : Type} (a b : Nat) (v : Nat → Nat → ι → ℝ) (all : Finset ι) (cells : A → Finset ι) :
    relative (gain3 a b v) (loss3 a b v) all cells = fun x =>
      ⟨(entQ (a * b) (fun k => v (k / b) (k % b)) (cells x)).gain / (entQ (a * b) (fun k => v (k / b) (k % b)) all).gain,
       (entQ (a * b) (fun k => v (k / b) (k % b)) (cells x)).loss / (entQ (a * b) (fun k => v (k / b) (k % b)) all).loss⟩ := by
  funext x
  simp only [relative, entQ, series_aux]

theorem divMod_aux {a b k : Nat} (h : k < a * b) : k / b < a ∧ k % b < b := by
  have hb : 0 < b := by
    rcases Nat.eq_zero_or_pos b with rfl | h'
    · simp at h
    · exact h'
  exact ⟨Nat.div_lt_of_lt_mul (by rwa [Nat.mul_comm] at h), Nat.mod_lt _ hb⟩

/-- `oaggregate(micro, th)`: the array has `d0 * d1` series of `d2` slices. For a given positive threshold (at least 11 units
of rounding error) there is a bound on the recursion depth such that, for every non-negative array of at least one and at most
65535 slices whose whole has a gain and a loss, the call returns and its result is right: the rows
of a parameter are intervals of slices numbered from 1 that tile `1..d2`, optimal among all tilings. -/
theorem ordered (fl : FloatLaws F ℝ u) (randMax : ℝ) (hr : 2 ≤ randMax) (t : F) (ht : (0 : ℝ) < FloatP.toK t)
    (hu : 11 * u ≤ FloatP.toK t) :
    ∃ N : Nat, ∀ (d0 d1 d2 : Nat) (f : Nat × Nat × Nat → ℝ), 0 < d0 → 0 < d1 → 0 < d2 → d2 ≤ 65535 → d0 * d1 < 2 ^ 32 →
      (∀ i j k, i < d0 → j < d1 → k < d2 → 0 ≤ f (i, j, k)) →
      let gain := gain3 d0 d1 (fun i j k => f (i, j, k))
      let loss := loss3 d0 d1 (fun i j k => f (i, j, k))
      let all := Finset.Icc 0 (d2 - 1)
      gain all ≠ 0 → loss all ≠ 0 →
      let quality := relative gain loss all (fun I : Nat × Nat => Finset.Icc I.1 I.2)
      ∀ fuel, N ≤ fuel → ∃ r, oaggregate false fuel randMax id (rArray d0 d1 d2 f) t = .ok r ∧
        RightSheet ORow.parameter (Tiles 0 d2) (Tiles 0 d2) quality
          (fun p I => ⟨p, I.1 + 1, I.2 + 1, (quality I).gain, (quality I).loss⟩) r := by
  obtain ⟨N, hN⟩ := sheet_aux fl randMax hr t ht hu
  refine ⟨N, ?_⟩
  intro d0 d1 d2 f h0 h1 h2 h2' hF hpos gain loss all hg hl quality fuel hf
  have hv : OData (OValuesN3.ofVec (table3 d0 d1 d2 f)).toOValues (d0 * d1) d2 (fun k o => f (k / d1, k % d1, o)) :=
    C05.containers.2.2.1 _ _ _ _ _ (OValuesN3.ofVec_holds h0 h1 hF f)
  have hp : ∀ k i, k < d0 * d1 → i < d2 → 0 ≤ f (k / d1, k % d1, i) :=
    fun k i hk hi => hpos _ _ _ (divMod_aux hk).1 (divMod_aux hk).2 hi
  obtain ⟨q, e, hq⟩ := oq_object hv h2' hp
  obtain ⟨q', e', hq'⟩ := oqNormalize_spec hq h2
  have hqual : quality = fun I => ⟨(entQ (d0 * d1) (fun k o => f (k / d1, k % d1, o)) (oCells I)).gain /
      (entQ (d0 * d1) (fun k o => f (k / d1, k % d1, o)) (oCells (0, d2 - 1))).gain,
      (entQ (d0 * d1) (fun k o => f (k / d1, k % d1, o)) (oCells I)).loss /
      (entQ (d0 * d1) (fun k o => f (k / d1, k % d1, o)) (oCells (0, d2 - 1))).loss⟩ :=
    rel_aux d0 d1 (fun i j k => f (i, j, k)) all (fun I : Nat × Nat => Finset.Icc I.1 I.2)
  have ho : IsPartitioner (oOps (F := F) q') := .ordered q' d2 _ hq'
  have key : oaggregate false fuel randMax id (rArray d0 d1 d2 f) t =
      rSearch (oOps (F := F) q') (fun (p, s, e, g, l) => (⟨p, s + 1, e + 1, g, l⟩ : ORow F ℝ)) false fuel randMax id t := by
    unfold oaggregate
    rw [convertToMicroModel_rArray]
    simp only [okBind]
    rw [e]
    simp only [okBind]
    rw [oNormalize_object hv.osize h2 e']
    rfl
  rw [key]
  refine hN (oOps (F := F) q') ho _ ORow.parameter (Tiles 0 d2) (Tiles 0 d2) quality _ ?_ ?_ ?_ ?_ fuel hf
  · intro p P r hr
    simp only [oOps, List.mem_map] at hr
    obtain ⟨x, _, rfl⟩ := hr
    rfl
  · intro x; rfl
  · intro p hp0 hp1
    obtain ⟨P, ds, L, b1, b2, b3, _, b5⟩ := oBest_lex hq' p
    have ht := oSol_tiles b5.mem 0 rfl (by omega)
    have eq : (fun x : Nat × Nat => (entQ (d0 * d1) (fun k o => f (k / d1, k % d1, o)) (oCells (x.1, x.2))).div
        (entQ (d0 * d1) (fun k o => f (k / d1, k % d1, o)) (oCells (0, d2 - 1)))) = quality := by rw [hqual]; rfl
    rw [eq] at b3 b5
    refine ⟨P, L, b1, ht, ?_, b3, ?_, ?_⟩
    · simp only [oOps]
      rw [b2, List.map_map, List.map_map]
      apply List.map_congr_left
      intro I _
      rw [← eq]
      rfl
    · exact C32.square_aux (cells := oCells) (w := (0, d2 - 1)) (tiles_cuts ht h2)
        (by simp [oCells]) (nonneg_oCells hp (by omega)) hqual
    · intro L' hL'
      obtain ⟨ds', s'⟩ := tiles_oSol hL'
      exact (b5.best ds' L' s').value
  · refine ⟨_, singles_tiles d2 0 (by omega), ?_⟩
    rw [hqual, (C32.scaled_aux _ _ _ _).2, (finest_zero (cells := oCells) (fun a ha => ?_)).2, zero_div]
    obtain ⟨i, _, rfl⟩ := List.mem_map.mp ha
    exact ⟨i, by simp [oCells]⟩

/-- `haggregate(micro, h, th)`: `h` is the vector of parents numbered from 1, with 0 for the root, which is the last node; the
first `d0` nodes are the leaves, each with `d1 * d2` values.  The rows of a parameter are nodes numbered from 1 such that every
leaf is below exactly one of them, with the number of leaves below; they are optimal among all such sets of nodes. -/
theorem hierarchical (fl : FloatLaws F ℝ u) (randMax : ℝ) (hr : 2 ≤ randMax) (t : F) (ht : (0 : ℝ) < FloatP.toK t)
    (hu : 11 * u ≤ FloatP.toK t) :
    ∃ N : Nat, ∀ (d0 d1 d2 : Nat) (f : Nat × Nat × Nat → ℝ) (h : List Int), 0 < d0 → 0 < d1 → d1 * d2 < 2 ^ 32 →
      let parents := h.map (· - 1)
      IsTree d0 parents (parents.length - 1) → NearestFirst d0 parents → d0 < parents.length →
      (∀ i j k, i < d0 → j < d1 → k < d2 → 0 ≤ f (i, j, k)) →
      let gain := gain3 d1 d2 (fun j k l => f (l, j, k))
      let loss := loss3 d1 d2 (fun j k l => f (l, j, k))
      let all := Finset.range d0
      gain all ≠ 0 → loss all ≠ 0 →
      let quality := relative gain loss all (leavesUnder d0 parents)
      ∀ fuel, N ≤ fuel → ∃ r, haggregate false fuel randMax id (rArray d0 d1 d2 f) h t = .ok r ∧
        RightSheet HRow.parameter (LeafCover d0 parents) (LeafCover d0 parents) quality
          (fun p n => ⟨p, n + 1, (leavesUnder d0 parents n).card, (quality n).gain, (quality n).loss⟩) r := by
  obtain ⟨N, hN⟩ := sheet_aux fl randMax hr t ht hu
  refine ⟨N, ?_⟩
  intro d0 d1 d2 f h h0 h1 hF parents tree near hlt hpos gain loss all hg hl quality fuel hf
  obtain ⟨md, m1, m2, m3⟩ := C03.right d0 parents _ tree near
  have hc : ∃ c, HValuesN3.ofVec (table3 d0 d1 d2 f) parents = .ok c := by
    unfold HValuesN3.ofVec
    rw [SIZE1_table3, m1]
    exact ⟨_, rfl⟩
  obtain ⟨c, hc⟩ := hc
  obtain ⟨md', m1', hold⟩ := HValuesN3.ofVec_holds h0 h1 hF f hc
  obtain rfl : md = md' := Except.ok.inj (m1.symm.trans m1')
  have hmd : RightMeta d0 parents c.toHValues.md := by
    show RightMeta d0 parents c.md
    rw [hold.md]; exact m3
  have hroot : c.toHValues.md.root = parents.length - 1 := by
    show c.md.root = _
    rw [hold.md]; exact m2
  have hv : HData c.toHValues (d1 * d2) d0 (fun k l => f (l, k / d2, k % d2)) := C06.containers.2.2.1 _ _ _ _ _ _ hold
  have hp : ∀ k l, k < d1 * d2 → l < d0 → 0 ≤ f (l, k / d2, k % d2) :=
    fun k i hk hi => hpos _ _ _ hi (divMod_aux hk).1 (divMod_aux hk).2
  obtain ⟨q, e, hq⟩ := hq_object hmd hlt hv hp
  obtain ⟨q', e', hq'⟩ := hqNormalize_spec hq hmd.tree.rootLt
  have hqual : quality = fun x => ⟨(entQ (d1 * d2) (fun k l => f (l, k / d2, k % d2)) (leavesUnder d0 parents x)).gain /
      (entQ (d1 * d2) (fun k l => f (l, k / d2, k % d2)) (leavesUnder d0 parents c.toHValues.md.root)).gain,
      (entQ (d1 * d2) (fun k l => f (l, k / d2, k % d2)) (leavesUnder d0 parents x)).loss /
      (entQ (d1 * d2) (fun k l => f (l, k / d2, k % d2)) (leavesUnder d0 parents c.toHValues.md.root)).loss⟩ := by
    rw [leavesUnder_root hmd.tree]
    exact rel_aux d1 d2 (fun j k l => f (l, j, k)) all (leavesUnder d0 parents)
  have hq' := hq'.congr (f := _) (g := quality)
    (fun x hx => by rw [hqual]; unfold nDiv; rw [if_neg (by omega)]; rfl)
  have ho : IsPartitioner (hOps (F := F) q' c.toHValues.md) := .hierarchical d0 parents _ q' _ hmd hlt hq'
  have key : haggregate false fuel randMax id (rArray d0 d1 d2 f) h t =
      rSearch (hOps (F := F) q' c.toHValues.md) (fun (p, n, s, g, l) => (⟨p, (n : Int) + 1, s, g, l⟩ : HRow F ℝ)) false fuel
        randMax id t := by
    unfold haggregate haggregateIn
    rw [convertToMicroModel_rArray, convertToHierarchy_map]
    simp only [okBind]
    rw [hc]
    simp only [okBind]
    rw [e]
    simp only [okBind]
    rw [hNormalize_object e']
    rfl
  rw [key]
  refine hN (hOps (F := F) q' c.toHValues.md) ho _ HRow.parameter (LeafCover d0 parents) (LeafCover d0 parents) quality _ ?_ ?_ ?_ ?_
    fuel hf
  · intro p P r hr
    simp only [hOps, List.mem_map] at hr
    obtain ⟨x, _, rfl⟩ := hr
    rfl
  · intro x; rfl
  · intro p hp0 hp1
    obtain ⟨P, ds, L, b1, b2, b3, _, b5, _⟩ := hBest_first hmd hlt hq' p
    obtain ⟨P', L', o1, o2, _, o4, o5⟩ := C19.optimal d0 parents _ hmd hlt q' quality hq' p
    obtain rfl : P = P' := Except.ok.inj (b1.symm.trans o1)
    have hcov := hSol_leafCover hmd b5.mem
    refine ⟨P, L, b1, hcov, ?_, b3, ?_, ?_⟩
    · simp only [hOps]
      rw [b2, List.map_map, List.map_map]
      apply List.map_congr_left
      intro x hx
      have := hmd.size x (hcov.1 x hx)
      simp [Function.comp, hPartOf, HMeta.sizeOf, this]
    · exact C32.square_aux (cells := leavesUnder d0 parents) (w := c.toHValues.md.root)
        (leafCover_cuts hmd.tree hcov) (leaves_nonempty hmd.tree hmd.tree.rootLt) (nonneg_hCells hp) hqual
    · intro L'' hL''
      have h1 := (o5 L'' hL'').1
      rw [b3] at o4
      have hg := congrArg Quality.gain o4
      have hl := congrArg Quality.loss o4
      simp only at hg hl
      unfold valueOf at h1 ⊢
      rw [hg, hl]
      exact h1
  · refine ⟨_, leaves_cover hmd.tree, ?_⟩
    rw [hqual, (C32.scaled_aux _ _ _ _).2, (finest_zero (cells := leavesUnder d0 parents) (fun a ha => ?_)).2, zero_div]
    exact ⟨a, leavesUnder_leaf hmd.tree (List.mem_range.mp ha)⟩

/-- `daggregate(micro, h, th)`: the array has one line per leaf, `d1` series and `d2` slices.  The rows of a parameter are
rectangles of nodes and slices numbered from 1 such that every cell is in exactly one of them, with the number of cells; they
are optimal among the partitions that are coarse first (see C21). -/
theorem spatiotemporal (fl : FloatLaws F ℝ u) (randMax : ℝ) (hr : 2 ≤ randMax) (t : F) (ht : (0 : ℝ) < FloatP.toK t)
    (hu : 11 * u ≤ FloatP.toK t) :
    ∃ N : Nat, ∀ (d0 d1 d2 : Nat) (f : Nat × Nat × Nat → ℝ) (h : List Int), 0 < d0 → 0 < d1 → 0 < d2 → d2 ≤ 65535 →
      d0 * d2 < 2147483648 →
      let parents := h.map (· - 1)
      IsTree d0 parents (parents.length - 1) → NearestFirst d0 parents → d0 < parents.length →
      (∀ i j k, i < d0 → j < d1 → k < d2 → 0 ≤ f (i, j, k)) →
      let gain := gain3 d1 1 (fun j _ (c : Nat × Nat) => f (c.1, j, c.2))
      let loss := loss3 d1 1 (fun j _ (c : Nat × Nat) => f (c.1, j, c.2))
      let all := Finset.range d0 ×ˢ Finset.Icc 0 (d2 - 1)
      gain all ≠ 0 → loss all ≠ 0 →
      let quality := relative gain loss all (fun r : Rect => leavesUnder d0 parents r.node ×ˢ Finset.Icc r.first r.last)
      ∀ fuel, N ≤ fuel → ∃ r, daggregate false fuel randMax id (rArray d0 d1 d2 f) h t = .ok r ∧
        RightSheet DRow.parameter (fun L => CellCover d0 parents d2 L ∧ CoarseFirst parents L)
          (fun L => CellCover d0 parents d2 L ∧ CoarseFirst parents L) quality
          (fun p x => ⟨p, x.node + 1, (leavesUnder d0 parents x.node).card * (x.last - x.first + 1), x.first + 1, x.last + 1,
            (quality x).gain, (quality x).loss⟩) r := by
  obtain ⟨N, hN⟩ := sheet_aux fl randMax hr t ht hu
  refine ⟨N, ?_⟩
  intro d0 d1 d2 f h h0 h1 h2 h2' hb parents tree near hlt hpos gain loss all hg hl quality fuel hf
  obtain ⟨md, m1, m2, m3⟩ := C03.right d0 parents _ tree near
  have hc : ∃ c, DValuesN3.ofVec (table3 d0 d1 d2 f) parents = .ok c := by
    unfold DValuesN3.ofVec
    rw [SIZE1_table3, m1]
    exact ⟨_, rfl⟩
  obtain ⟨c, hc⟩ := hc
  obtain ⟨md', m1', hold⟩ := DValuesN3.ofVec_holds h0 h1 f hc
  obtain rfl : md = md' := Except.ok.inj (m1.symm.trans m1')
  have hmd : RightMeta d0 parents c.toDValues.md := by
    show RightMeta d0 parents c.md
    rw [hold.md]; exact m3
  have hroot : c.toDValues.md.root = parents.length - 1 := by
    show c.md.root = _
    rw [hold.md]; exact m2
  have hv : DData c.toDValues d1 d0 d2 (fun k x => f (x.1, k, x.2)) := C07.containers.2.1 _ _ _ _ _ _ hold
  have hp : ∀ k l x, k < d1 → l < d0 → x < d2 → 0 ≤ f (l, k, x) := fun k l x hk hl hx => hpos _ _ _ hl hk hx
  obtain ⟨q, e, hq⟩ := dq_object hmd hlt h2' hb hv hp
  obtain ⟨q', e', hq'⟩ := dqNormalize_spec hq hmd.tree.rootLt hmd.hsize h2 h2'
  have hall : dCells d0 parents ⟨c.toDValues.md.root, 0, d2 - 1⟩ = all := by
    unfold dCells; rw [leavesUnder_root hmd.tree]
  have hqual : quality = fun x => ⟨(entQ d1 (fun k x => f (x.1, k, x.2)) (dCells d0 parents x)).gain /
      (entQ d1 (fun k x => f (x.1, k, x.2)) (dCells d0 parents ⟨c.toDValues.md.root, 0, d2 - 1⟩)).gain,
      (entQ d1 (fun k x => f (x.1, k, x.2)) (dCells d0 parents x)).loss /
      (entQ d1 (fun k x => f (x.1, k, x.2)) (dCells d0 parents ⟨c.toDValues.md.root, 0, d2 - 1⟩)).loss⟩ := by
    rw [hall]
    have := rel_aux d1 1 (fun j _ (c : Nat × Nat) => f (c.1, j, c.2)) all (dCells d0 parents)
    simp only [Nat.mul_one, Nat.div_one] at this
    exact this
  have hq' := hq'.congr (g := fun h i j => quality ⟨h, i, j⟩)
    (fun x i j hx _ _ => by rw [hqual]; unfold nDiv; rw [if_neg (by omega)]; rfl)
  have hrq : rq (fun h i j => quality ⟨h, i, j⟩) = quality := rfl
  have ho : IsPartitioner (dOps (F := F) q' c.toDValues.md) := .spatiotemporal d0 parents _ d2 q' _ hmd h2 h2' hq'
  have key : daggregate false fuel randMax id (rArray d0 d1 d2 f) h t =
      rSearch (dOps (F := F) q' c.toDValues.md)
        (fun (p, n, s, a, b, g, l) => (⟨p, (n : Int) + 1, s, (a : Int) + 1, (b : Int) + 1, g, l⟩ : DRow F ℝ)) false fuel
        randMax id t := by
    unfold daggregate daggregateIn
    rw [convertToMicroModel_rArray, convertToHierarchy_map]
    simp only [okBind]
    rw [hc]
    simp only [okBind]
    rw [e]
    simp only [okBind]
    rw [dNormalize_object hv.osize h2 e']
    rfl
  rw [key]
  refine hN (dOps (F := F) q' c.toDValues.md) ho _ DRow.parameter (fun L => CellCover d0 parents d2 L ∧ CoarseFirst parents L)
    (fun L => CellCover d0 parents d2 L ∧ CoarseFirst parents L) quality _ ?_ ?_ ?_ ?_ fuel hf
  · intro p P r hr
    simp only [dOps, List.mem_map] at hr
    obtain ⟨x, _, rfl⟩ := hr
    rfl
  · intro x; rfl
  · intro p hp0 hp1
    obtain ⟨P, ds, L, b1, b2, b3, _, b5⟩ := dBest_first hmd hq' h2 h2' p
    rw [hrq] at b3 b5
    have hcov := dSol_cellCover hmd h2 b5.mem
    refine ⟨P, L, b1, ⟨hcov, dSol_coarse hmd h2 b5.mem⟩, ?_, b3, ?_, ?_⟩
    · simp only [dOps]
      rw [b2, List.map_map, List.map_map]
      apply List.map_congr_left
      intro x hx
      have := hmd.size x.node (hcov.1 x hx).1
      simp [Function.comp, dPartOf, DPart.getSize, HMeta.sizeOf, this]
    · exact C32.square_aux (cells := dCells d0 parents) (w := ⟨c.toDValues.md.root, 0, d2 - 1⟩)
        (cellCover_cuts hmd.tree hcov h2)
        ((leaves_nonempty hmd.tree hmd.tree.rootLt).product (Finset.nonempty_Icc.mpr (Nat.zero_le _)))
        (nonneg_dCells hp (by omega)) hqual
    · rintro L' ⟨hL', hcf⟩
      obtain ⟨ds', L'', hs, hperm⟩ := coarse_dSol hmd h2 hL' hcf
      have hg : gainOf quality L'' = gainOf quality L' := by unfold gainOf; rw [(hperm.map _).sum_eq]
      have hl : lossOf quality L'' = lossOf quality L' := by unfold lossOf; rw [(hperm.map _).sum_eq]
      have := (b5.best ds' L'' hs).value
      unfold valueOf at this ⊢
      rw [hg, hl] at this
      exact this
  · obtain ⟨ds1, L1, s1, p1⟩ := product_dSol hmd h2 (leaves_cover hmd.tree)
      (tiling := fun _ => (List.range' 0 (d2 - 0)).map (fun i => (i, i))) (fun h _ => singles_tiles d2 0 (by omega))
    refine ⟨L1, ⟨dSol_cellCover hmd h2 s1, dSol_coarse hmd h2 s1⟩, ?_⟩
    rw [hqual, (C32.scaled_aux _ _ _ _).2, (finest_zero (cells := dCells d0 parents) (fun r hr => ?_)).2, zero_div]
    rw [p1.mem_iff, List.mem_flatMap] at hr
    obtain ⟨h, hh, hr⟩ := hr
    obtain ⟨I, hI, rfl⟩ := List.mem_map.mp hr
    obtain ⟨i, _, rfl⟩ := List.mem_map.mp hI
    exact ⟨(h, i), by simp [dCells, leavesUnder_leaf hmd.tree (List.mem_range.mp hh)]⟩

/-! ## Concrete cases -/

theorem nz_aux {ι : Type} {f : ι → ℝ} {s : Finset ι} (hp : ∀ x ∈ s, 0 ≤ f x) {a b c d : ι} (ha : a ∈ s) (hb : b ∈ s)
    (h0 : f a ≠ 0) (h1 : f b ≠ 0) (hab : a ≠ b) (hc : c ∈ s) (hd : d ∈ s) (hcd : f c ≠ f d) :
    gain3 1 1 (fun _ _ => f) s ≠ 0 ∧ loss3 1 1 (fun _ _ => f) s ≠ 0 := by
  obtain ⟨e1, e2⟩ := series_aux 1 1 (fun _ _ => f) s
  rw [← e1, ← e2]
  constructor
  · rw [ne_eq, gainSeries_zero_iff (fun k hk x hx => hp x hx)]
    intro h
    exact hab (h 0 (by norm_num) a ha b hb (lt_of_le_of_ne (hp a ha) (Ne.symm h0)) (lt_of_le_of_ne (hp b hb) (Ne.symm h1)))
  · rw [ne_eq, lossSeries_zero_iff (fun k hk x hx => hp x hx)]
    intro h
    exact hcd (h 0 (by norm_num) c hc d hd)

/-- The data 1, 0, 2 of a 1 x 1 x 3 array with IEEE binary32 parameters, any rounding mode and the threshold 1/1024. -/
example (R : Rounding) (t : OverReal (B32 R)) (ht : t.1 = 1 / 1024) : ∃ fuel r,
    oaggregate (F := OverReal (B32 R)) false fuel 2147483647 id ⟨1, 1, 3, [1, 0, 2]⟩ t = .ok r ∧ r.qualities ≠ [] ∧
    1 / 2 ≤ r.auc := by
  obtain ⟨N, h⟩ := ordered (overRealLaws (b32Laws R)) 2147483647 (by norm_num) t
    (by show (0 : ℝ) < ((t.1 : ℚ) : ℝ); rw [ht]; norm_num)
    (by show 11 * (((1 / 2 ^ 23 : ℚ)) : ℝ) ≤ ((t.1 : ℚ) : ℝ); rw [ht]; norm_num)
  have hp : ∀ i j k : Nat, 0 ≤ (fun x : Nat × Nat × Nat => if x.2.2 = 2 then (2 : ℝ) else if x.2.2 = 1 then 0 else 1) (i, j, k) := by
    intro i j k; dsimp only; split_ifs <;> norm_num
  obtain ⟨n1, n2⟩ := nz_aux (f := fun k => if k = 2 then (2 : ℝ) else if k = 1 then 0 else 1) (s := Finset.Icc 0 2)
    (fun x _ => hp 0 0 x) (a := 0) (b := 2) (c := 0) (d := 1) (by simp) (by simp) (by norm_num) (by norm_num) (by norm_num)
    (by simp) (by simp) (by norm_num)
  obtain ⟨r, e, hr⟩ := h 1 1 3 (fun x => if x.2.2 = 2 then (2 : ℝ) else if x.2.2 = 1 then 0 else 1) (by norm_num) (by norm_num)
    (by norm_num) (by norm_num) (by norm_num) (fun i j k _ _ _ => hp i j k) n1 n2 N (Nat.le_refl _)
  refine ⟨N, r, ?_, ?_, hr.auc.1⟩
  · rw [← e]
    congr 1
  · intro e0
    obtain ⟨p, hp, _⟩ := hr.first
    rw [e0] at hp
    simp at hp

/-- Four leaves with values 1, 2, 3, 4 under two nodes and a root: parents 5, 5, 6, 6, 7, 7, 0. -/
example : ∃ fuel r, haggregate (F := ℝ) false fuel 2147483647 id (rArray 4 1 1 fun x => (x.1 + 1 : ℝ)) [5, 5, 6, 6, 7, 7, 0]
    (1 / 100) = .ok r ∧ r.auc ≤ 1 := by
  obtain ⟨N, h⟩ := hierarchical (exactLaws ℝ) 2147483647 (by norm_num) (1 / 100 : ℝ) (by simp) (by simp)
  have tree : IsTree 4 [4, 4, 5, 5, 6, 6, -1] 6 :=
    .ofCheck (fun h => if h < 4 then 2 else if h = 6 then 0 else 1) (by decide) (by decide) (by decide) (by decide)
  obtain ⟨n1, n2⟩ := nz_aux (f := fun k : Nat => (k + 1 : ℝ)) (s := Finset.range 4)
    (fun x _ => by positivity) (a := 0) (b := 2) (c := 0) (d := 1) (by simp) (by simp) (by norm_num) (by norm_num) (by norm_num)
    (by simp) (by simp) (by norm_num)
  obtain ⟨r, e, hr⟩ := h 4 1 1 (fun x => (x.1 + 1 : ℝ)) [5, 5, 6, 6, 7, 7, 0] (by norm_num) (by norm_num) (by norm_num) tree
    (balanced_nearestFirst tree
      (.ofCheck (fun h => if h < 4 then 0 else if h = 6 then 2 else 1) (by decide) (by decide) (by decide)))
    (by norm_num) (fun i j k _ _ _ => by positivity) n1 n2 N (Nat.le_refl _)
  exact ⟨N, r, e, hr.auc.2⟩

/-- The same leaves with two slices each. -/
example : ∃ fuel r, daggregate (F := ℝ) false fuel 2147483647 id (rArray 4 1 2 fun x => (x.1 + x.2.2 : ℝ)) [5, 5, 6, 6, 7, 7, 0]
    (1 / 100) = .ok r ∧ r.auc ≤ 1 := by
  obtain ⟨N, h⟩ := spatiotemporal (exactLaws ℝ) 2147483647 (by norm_num) (1 / 100 : ℝ) (by simp) (by simp)
  have tree : IsTree 4 [4, 4, 5, 5, 6, 6, -1] 6 :=
    .ofCheck (fun h => if h < 4 then 2 else if h = 6 then 0 else 1) (by decide) (by decide) (by decide) (by decide)
  obtain ⟨n1, n2⟩ := nz_aux (f := fun c : Nat × Nat => (c.1 + c.2 : ℝ)) (s := Finset.range 4 ×ˢ Finset.Icc 0 1)
    (fun x _ => by positivity) (a := (0, 1)) (b := (2, 0)) (c := (0, 1)) (d := (2, 0)) (by simp) (by simp) (by norm_num)
    (by norm_num) (by norm_num) (by simp) (by simp) (by norm_num)
  obtain ⟨r, e, hr⟩ := h 4 1 2 (fun x => (x.1 + x.2.2 : ℝ)) [5, 5, 6, 6, 7, 7, 0] (by norm_num) (by norm_num) (by norm_num)
    (by norm_num) (by norm_num) tree
    (balanced_nearestFirst tree
      (.ofCheck (fun h => if h < 4 then 0 else if h = 6 then 2 else 1) (by decide) (by decide) (by decide)))
    (by norm_num) (fun i j k _ _ _ => by positivity) n1 n2 N (Nat.le_refl _)
  exact ⟨N, r, e, hr.auc.2⟩

/-- The series 0 is enough for a gain and a loss. -/
theorem nz3_aux {ι : Type} {m n : Nat} {v : Nat → Nat → ι → ℝ} {s : Finset ι} (hm : 0 < m) (hn : 0 < n) (hp : ∀ i j x, 0 ≤ v i j x)
    {a b c d : ι} (ha : a ∈ s) (hb : b ∈ s) (h0 : v 0 0 a ≠ 0) (h1 : v 0 0 b ≠ 0) (hab : a ≠ b) (hc : c ∈ s) (hd : d ∈ s)
    (hcd : v 0 0 c ≠ v 0 0 d) : gain3 m n v s ≠ 0 ∧ loss3 m n v s ≠ 0 := by
  obtain ⟨e1, e2⟩ := series_aux m n v s
  rw [← e1, ← e2]
  have hmn : 0 < m * n := Nat.mul_pos hm hn
  have z : v (0 / n) (0 % n) = v 0 0 := by rw [Nat.zero_div, Nat.zero_mod]
  constructor
  · rw [ne_eq, gainSeries_zero_iff (fun k hk x hx => hp _ _ x)]
    intro h
    have := h 0 hmn a ha b hb
    rw [z] at this
    exact hab (this (lt_of_le_of_ne (hp 0 0 a) (Ne.symm h0)) (lt_of_le_of_ne (hp 0 0 b) (Ne.symm h1)))
  · rw [ne_eq, lossSeries_zero_iff (fun k hk x hx => hp _ _ x)]
    intro h
    have := h 0 hmn c hc d hd
    rw [z] at this
    exact hcd this

/-- The tenths in the array of `R/example_simple.R:9-13`: two processes, two types, five slices. -/
def shippedTenths : List (List (List Nat)) := [[[5, 2, 0, 1, 4], [5, 8, 10, 9, 6]], [[4, 3, 1, 2, 3], [6, 7, 9, 8, 7]]]

noncomputable def shippedAt (x : Nat × Nat × Nat) : ℝ := (((shippedTenths.getD x.1 []).getD x.2.1 []).getD x.2.2 0 : Nat) / 10

/-- The three calls of `R/example_simple.R`, with IEEE binary32 parameters and a threshold that is nearly 0.001, return right results; they have at least the
row for the smallest parameter. -/
example (R : Rounding) (t : OverReal (B32 R)) (ht : 999 / 1000000 ≤ t.1) : ∃ fuel r r' r'',
    oaggregate (F := OverReal (B32 R)) false fuel 2147483647 id (rArray 2 2 5 shippedAt) t = .ok r ∧ r.qualities ≠ [] ∧
    haggregate (F := OverReal (B32 R)) false fuel 2147483647 id (rArray 2 2 5 shippedAt) [3, 3, 0] t = .ok r' ∧ r'.qualities ≠ [] ∧
    daggregate (F := OverReal (B32 R)) false fuel 2147483647 id (rArray 2 2 5 shippedAt) [3, 3, 0] t = .ok r'' ∧ r''.qualities ≠ [] := by
  have t0 : (0 : ℝ) < ((t.1 : ℚ) : ℝ) := by
    have : (0 : ℚ) < t.1 := by linarith
    exact_mod_cast this
  have t1 : 11 * (((1 / 2 ^ 23 : ℚ)) : ℝ) ≤ ((t.1 : ℚ) : ℝ) := by
    have : 11 * (1 / 2 ^ 23 : ℚ) ≤ t.1 := by linarith
    exact_mod_cast this
  have hp : ∀ i j k : Nat, 0 ≤ shippedAt (i, j, k) := fun i j k => by unfold shippedAt; positivity
  have tree : IsTree 2 [2, 2, -1] 2 := .ofCheck (fun h => if h < 2 then 1 else 0) (by decide) (by decide) (by decide) (by decide)
  have near : NearestFirst 2 [2, 2, -1] :=
    balanced_nearestFirst tree (.ofCheck (fun h => if h < 2 then 0 else 1) (by decide) (by decide) (by decide))
  have head : ∀ {R' A : Type} {param : R' → OverReal (B32 R)} {part rival : List A → Prop} {quality row} {r : RResult (OverReal (B32 R)) ℝ R'},
      RightSheet param part rival quality row r → r.qualities ≠ [] := by
    intro R' A param part rival quality row r hr e0
    obtain ⟨p, hp, _⟩ := hr.first
    rw [e0] at hp
    simp at hp
  obtain ⟨N, h⟩ := ordered (overRealLaws (b32Laws R)) 2147483647 (by norm_num) t t0 t1
  obtain ⟨N', h'⟩ := hierarchical (overRealLaws (b32Laws R)) 2147483647 (by norm_num) t t0 t1
  obtain ⟨N'', h''⟩ := spatiotemporal (overRealLaws (b32Laws R)) 2147483647 (by norm_num) t t0 t1
  obtain ⟨g, l⟩ := nz3_aux (m := 2) (n := 2) (v := fun i j k => shippedAt (i, j, k)) (s := Finset.Icc 0 4) (by norm_num) (by norm_num)
    (fun i j x => hp _ _ _) (a := 0) (b := 1) (c := 0) (d := 1) (by simp) (by simp) (by simp [shippedAt, shippedTenths])
    (by simp [shippedAt, shippedTenths]) (by norm_num) (by simp) (by simp) (by simp [shippedAt, shippedTenths])
  obtain ⟨g', l'⟩ := nz3_aux (m := 2) (n := 5) (v := fun j k l => shippedAt (l, j, k)) (s := Finset.range 2) (by norm_num) (by norm_num)
    (fun i j x => hp _ _ _) (a := 0) (b := 1) (c := 0) (d := 1) (by simp) (by simp) (by simp [shippedAt, shippedTenths])
    (by simp [shippedAt, shippedTenths]) (by norm_num) (by simp) (by simp) (by simp [shippedAt, shippedTenths])
  obtain ⟨g'', l''⟩ := nz3_aux (m := 2) (n := 1) (v := fun j _ (c : Nat × Nat) => shippedAt (c.1, j, c.2))
    (s := Finset.range 2 ×ˢ Finset.Icc 0 4) (by norm_num) (by norm_num)
    (fun i j x => hp _ _ _) (a := (0, 0)) (b := (0, 1)) (c := (0, 0)) (d := (0, 1)) (by simp) (by simp) (by simp [shippedAt, shippedTenths])
    (by simp [shippedAt, shippedTenths]) (by simp) (by simp) (by simp) (by simp [shippedAt, shippedTenths])
  obtain ⟨r, e, hr⟩ := h 2 2 5 shippedAt (by norm_num) (by norm_num) (by norm_num) (by norm_num) (by norm_num) (fun i j k _ _ _ => hp i j k) g l
    (max N (max N' N'')) (by omega)
  obtain ⟨r', e', hr'⟩ := h' 2 2 5 shippedAt [3, 3, 0] (by norm_num) (by norm_num) (by norm_num) tree near (by decide) (fun i j k _ _ _ => hp i j k)
    g' l' (max N (max N' N'')) (by omega)
  obtain ⟨r'', e'', hr''⟩ := h'' 2 2 5 shippedAt [3, 3, 0] (by norm_num) (by norm_num) (by norm_num) (by norm_num) (by norm_num) tree near (by decide)
    (fun i j k _ _ _ => hp i j k) g'' l'' (max N (max N' N'')) (by omega)
  exact ⟨_, r, r', r'', e, head hr, e', head hr', e'', head hr''⟩

/-- The conversion of a 2 x 2 x 2 array: R lists the first index fastest. -/
example : convertToMicroModel (⟨2, 2, 2, [111, 211, 121, 221, 112, 212, 122, 222]⟩ : RArray Nat) =
    .ok [[[111, 112], [121, 122]], [[211, 212], [221, 222]]] := by decide +kernel

end Lp.C49
