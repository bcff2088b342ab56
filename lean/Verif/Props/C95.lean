import Verif.Props.C88
import Verif.Props.C90
import Verif.Props.C94
import Verif.Spec.Thresholds

/-!
# C95 — The threshold in R: a smaller one only adds, and a small enough one misses nothing

For non-negative arrays whose whole has a gain and a loss.  `NothingMissing` is for exact parameters; with IEEE binary32 parameters
thresholds below their resolution never return (C26), so there the first two parts, and the bounds of C89 and C90, are what holds.
-/

namespace Lp.C95
open Spec
variable {F : Type} [FloatP F ℝ] {u : ℝ}

theorem ends_aux (fl : FloatLaws F ℝ u) : (FloatP.toK (FloatP.zero : F) : ℝ) = 0 ∧
    (FloatP.toK (FloatP.oneSub (FloatP.zero : F)) : ℝ) = 1 := ⟨fl.zero, fl.oneSub_zero _ fl.zero⟩

theorem points_aux {P T R : Type} {st : PState F ℝ P T} {r : RResult F ℝ R}
    (h : r.qualities = st.qualityList.map (fun e => (⟨e.1, e.2.gain, e.2.loss⟩ : QRow F ℝ))) :
    curvePoints r = (st.qualityList.map Prod.snd).map (fun q => (q.gain, q.loss)) := by
  unfold curvePoints
  rw [h, List.map_map, List.map_map]
  rfl

theorem row_aux (fl : FloatLaws F ℝ u) {P T R : Type} {ops : PartOps F ℝ P T} (ho : IsPartitioner ops) {t : F} {fuel : Nat}
    {s st : PState F ℝ P T} (hst : computeBestPartitions ops false fuel t FloatP.zero (FloatP.oneSub FloatP.zero) s = .ok st)
    {r : RResult F ℝ R} (h : r.qualities = st.qualityList.map (fun e => (⟨e.1, e.2.gain, e.2.loss⟩ : QRow F ℝ)))
    {p : F} {X : P} (hX : (p, X) ∈ st.partitions) :
    (⟨p, (ops.quality X).gain, (ops.quality X).loss⟩ : QRow F ℝ) ∈ r.qualities ∧ ops.best p = .ok X := by
  obtain ⟨z0, z1⟩ := ends_aux fl
  obtain ⟨_, _, _, _, l5, l6, _⟩ := C28.list fl ops ho t _ _ z0.ge (by rw [z0, z1]; norm_num) z1.le fuel s st hst
  refine ⟨?_, l5 _ hX⟩
  rw [h, l6, List.map_map]
  exact List.mem_map.mpr ⟨_, hX, rfl⟩

theorem adds_aux (fl : FloatLaws F ℝ u) {P T R : Type} {ops : PartOps F ℝ P T} (ho : IsPartitioner ops) {rowFn : T → R}
    {fuel fuel' : Nat} {randMax : ℝ} {t t' : F} (htt : (FloatP.toK t' : ℝ) ≤ FloatP.toK t) {r r' : RResult F ℝ R}
    (h : rSearch ops rowFn false fuel randMax id t = .ok r) (h' : rSearch ops rowFn false fuel' randMax id t' = .ok r') : OnlyAdds r r' := by
  obtain ⟨z0, z1⟩ := ends_aux fl
  obtain ⟨st, hst, ho1, ha, _, hq⟩ := rSearch_ok h
  obtain ⟨st', hst', ho1', ha', _, hq'⟩ := rSearch_ok h'
  have ref : C66.Refines ops t t' FloatP.zero (FloatP.oneSub FloatP.zero) st st' :=
    ⟨z0.ge, by rw [z0, z1]; norm_num, z1.le, htt, ⟨_, _, hst⟩, ⟨_, _, hst'⟩⟩
  refine ⟨?_, ?_, ?_⟩
  · rw [points_aux hq, points_aux hq']
    exact (C66.curve fl ops ho _ _ _ _ _ _ ref).map _
  · obtain ⟨a, a', e, e', hle⟩ := C66.auc fl ops ho _ _ _ _ _ _ ref
    rw [Except.ok.inj (ha.symm.trans e), Except.ok.inj (ha'.symm.trans e')]
    exact hle
  · obtain ⟨p', X, X', e', m, m', hle⟩ := C66.optimum fl ops ho _ _ _ _ _ _ ref randMax r.pOpt ho1
    obtain rfl := Except.ok.inj (ho1'.symm.trans e')
    exact ⟨_, (row_aux fl ho hst hq m).1, _, (row_aux fl ho hst' hq' m').1, rfl, rfl, hle⟩

theorem answer_aux (fl : FloatLaws F ℝ u) {P T R : Type} {ops : PartOps F ℝ P T} (ho : IsPartitioner ops) {rowFn : T → R}
    {fuel fuel' : Nat} {randMax : ℝ} {t t' : F} {r r' : RResult F ℝ R}
    (h : rSearch ops rowFn false fuel randMax id t = .ok r) (h' : rSearch ops rowFn false fuel' randMax id t' = .ok r')
    (hsame : ∀ st st', computeBestPartitions ops false fuel t FloatP.zero (FloatP.oneSub FloatP.zero) PState.empty = .ok st →
      computeBestPartitions ops false fuel' t' FloatP.zero (FloatP.oneSub FloatP.zero) PState.empty = .ok st' →
      C88.SameAnswer ops st st') : SameResult r r' := by
  obtain ⟨st, hst, ho1, ha, _, hq⟩ := rSearch_ok h
  obtain ⟨st', hst', ho1', ha', _, hq'⟩ := rSearch_ok h'
  have s := hsame st st' hst hst'
  refine ⟨?_, ?_, ?_⟩
  · rw [points_aux hq, points_aux hq', s.curve]
  · obtain ⟨a, e, e'⟩ := s.area
    rw [Except.ok.inj (ha.symm.trans e), Except.ok.inj (ha'.symm.trans e')]
  · rcases s.optimum randMax with ⟨e, _⟩ | ⟨p, p', X, X', e, e', m, m', hs⟩
    · rw [ho1] at e; cases e
    · obtain rfl := Except.ok.inj (ho1.symm.trans e)
      obtain rfl := Except.ok.inj (ho1'.symm.trans e')
      obtain ⟨x1, x2⟩ := row_aux fl ho hst hq m
      obtain ⟨y1, y2⟩ := row_aux fl ho hst' hq' m'
      have := isPartitioner_sameQ ho _ _ X X' x2 y2 hs
      exact ⟨_, x1, _, y1, rfl, rfl, by dsimp only; rw [this], by dsimp only; rw [this]⟩

/-- A search that returns belongs to a call that returns. -/
theorem call_aux (fl : FloatLaws F ℝ u) {P T R A : Type} {ops : PartOps F ℝ P T} {part rival : List A → Prop}
    {quality : A → Quality ℝ} (uo : UnitOps ops part rival quality) (rowFn : T → R) {fuel : Nat} {randMax : ℝ} (hr : 2 ≤ randMax)
    {t : F} {st : PState F ℝ P T}
    (hst : computeBestPartitions ops false fuel t FloatP.zero (FloatP.oneSub FloatP.zero) PState.empty = .ok st) :
    ∃ r, rSearch ops rowFn false fuel randMax id t = .ok r := by
  obtain ⟨z0, z1⟩ := ends_aux fl
  have hlt : (FloatP.toK (FloatP.zero : F) : ℝ) < FloatP.toK (FloatP.oneSub (FloatP.zero : F)) := by rw [z0, z1]; norm_num
  obtain ⟨l1, _, l3, l4, l5, l6, _⟩ := C28.list fl ops uo.partitioner t _ _ z0.ge hlt z1.le fuel _ st hst
  obtain ⟨e, he⟩ : ∃ e, e ∈ st.partitions := by
    cases hp : st.partitions with
    | nil => rw [← l4, hp] at l1; cases l1
    | cons a l => exact ⟨a, by simp⟩
  have hd : ∃ e ∈ st.qualityList, C31.dist e.2 ≤ randMax := by
    refine ⟨(e.1, ops.quality e.2), by rw [l6]; exact List.mem_map.mpr ⟨e, he, rfl⟩, ?_⟩
    have hb := l3 e.1 (by rw [← l4]; exact List.mem_map_of_mem he)
    rw [z0, z1] at hb
    obtain ⟨X, L, x1, x2, x3, _⟩ := uo.best e.1 hb.1 hb.2
    obtain rfl : e.2 = X := Except.ok.inj ((l5 e he).symm.trans x1)
    obtain ⟨a1, a2, a3, a4⟩ := uo.unit L x2
    dsimp only
    rw [x3]
    unfold C31.dist
    dsimp only
    nlinarith
  obtain ⟨p, _, hp, _⟩ := (C31.optimum fl ops uo.partitioner t _ _ z0.ge hlt z1.le fuel _ st hst randMax).1 hd
  obtain ⟨a, _, ha, _⟩ := C66.auc fl ops uo.partitioner t t _ _ st st ⟨z0.ge, hlt, z1.le, le_refl _, ⟨_, _, hst⟩, ⟨_, _, hst⟩⟩
  refine ⟨⟨st.tuples.map rowFn, st.qualityList.map (fun e => ⟨e.1, e.2.gain, e.2.loss⟩), p, a⟩, ?_⟩
  unfold rSearch
  rw [hst]
  simp only [okBind]
  rw [hp]
  simp only [okBind]
  rw [ha]
  rfl

theorem settles_aux (fl : FloatLaws F ℝ u) {P T R A : Type} {ops : PartOps F ℝ P T} {part rival : List A → Prop}
    {quality : A → Quality ℝ} (uo : UnitOps ops part rival quality) (rowFn : T → R) {randMax : ℝ} (hr : 2 ≤ randMax)
    (hex : ∃ t fuel r, rSearch ops rowFn false fuel randMax id t = .ok r) :
    ∃ t0 fuel0 r0, rSearch ops rowFn false fuel0 randMax id t0 = .ok r0 ∧
      ∀ t fuel r, (FloatP.toK t : ℝ) ≤ FloatP.toK t0 → rSearch ops rowFn false fuel randMax id t = .ok r → SameResult r0 r := by
  obtain ⟨z0, z1⟩ := ends_aux fl
  obtain ⟨t, fuel, r, h⟩ := hex
  obtain ⟨st, hst, _⟩ := rSearch_ok h
  obtain ⟨t0, f0, s0, st0, e0, hs⟩ := C88.settles fl ops uo.partitioner _ _ z0.ge (by rw [z0, z1]; norm_num) z1.le ⟨t, fuel, _, st, hst⟩
  have e0' : computeBestPartitions ops false f0 t0 FloatP.zero (FloatP.oneSub FloatP.zero) PState.empty = .ok st0 := e0
  obtain ⟨r0, hr0⟩ := call_aux fl uo rowFn hr e0'
  refine ⟨t0, f0, r0, hr0, fun t fuel r hle h => answer_aux fl uo.partitioner hr0 h ?_⟩
  intro st st' a b
  obtain rfl := Except.ok.inj (a.symm.trans e0')
  exact hs t fuel _ st' hle b

theorem all_aux {P T R A : Type} {ops : PartOps ℝ ℝ P T} {part rival : List A → Prop}
    {quality : A → Quality ℝ} (uo : UnitOps ops part rival quality) (rowFn : T → R) {randMax : ℝ}
    (call : ℝ → Nat → Res (RResult ℝ ℝ R)) (hcall : ∀ t fuel, call t fuel = rSearch ops rowFn false fuel randMax id t)
    (hret : ∀ t, 0 < t → ∃ N, ∀ fuel, N ≤ fuel → ∃ r, call t fuel = .ok r) :
    ∃ T, NothingMissing call rival quality T := by
  have z0 : (FloatP.zero : ℝ) = 0 := (ends_aux (exactLaws ℝ)).1
  have z1 : (FloatP.oneSub (FloatP.zero : ℝ)) = (1 : ℝ) := (ends_aux (exactLaws ℝ)).2
  obtain ⟨T, hT, hset⟩ := C88.threshold ops uo.partitioner 0 1 (le_refl _) one_pos (le_refl _)
  refine ⟨T, hT, hret, ?_, ?_⟩
  · intro t fuel r ht hle h p p0 p1 L hL
    rw [hcall] at h
    obtain ⟨st, hst, _, _, _, hq⟩ := rSearch_ok h
    have hst' := hst
    rw [z0, show (FloatP.oneSub (0 : ℝ)) = (1 : ℝ) from z1 ▸ by rw [z0]] at hst'
    obtain ⟨X, L', x1, x2, x3, x4⟩ := uo.best p p0 p1
    have val : p * gainOf quality L - (1 - p) * lossOf quality L ≤ C88.score p (ops.quality X) := by
      rw [x3]
      exact x4 L hL
    have fin : ∀ x ∈ st.partitions, C88.score p (ops.quality x.2) = C88.score p (ops.quality X) →
        ∃ e ∈ r.qualities, p * gainOf quality L - (1 - p) * lossOf quality L ≤ p * e.gain - (1 - p) * e.loss := by
      intro x hx he
      refine ⟨_, (row_aux (exactLaws ℝ) uo.partitioner hst hq (p := x.1) (X := x.2) hx).1, ?_⟩
      rw [← he] at val
      exact val
    rcases C88.everywhere ops uo.partitioner 0 1 T (le_refl _) one_pos (le_refl _) hset t ht hle fuel _ st hst' p p0 p1 X x1 with
      ⟨x, hx, hs⟩ | ⟨x, hx, _, _, _, he, _⟩
    · refine fin x hx ?_
      rw [isPartitioner_sameQ uo.partitioner p x.1 X x.2 x1 (row_aux (exactLaws ℝ) uo.partitioner hst hq (p := x.1) (X := x.2) hx).2 hs]
    · exact fin x hx he
  · intro t t' fuel fuel' r r' ht hle ht' hle' h h'
    rw [hcall] at h h'
    refine answer_aux (exactLaws ℝ) uo.partitioner h h' ?_
    intro st st' a b
    rw [z0, show (FloatP.oneSub (0 : ℝ)) = (1 : ℝ) from z1 ▸ by rw [z0]] at a b
    exact hset t t' ht hle ht' hle' fuel fuel' _ _ st st' a b

/-! ## `oaggregate` -/

/-- Two calls that return, `t' ≤ t`: the smaller threshold only adds. -/
theorem ordered (fl : FloatLaws F ℝ u) (randMax : ℝ) (d0 d1 d2 : Nat) (f : Nat × Nat × Nat → ℝ) (h0 : 0 < d0) (h1 : 0 < d1)
    (h2 : 0 < d2) (h2' : d2 ≤ 65535) (hF : d0 * d1 < 2 ^ 32) (hpos : ∀ i j k, i < d0 → j < d1 → k < d2 → 0 ≤ f (i, j, k))
    (_hg : gain3 d0 d1 (fun i j k => f (i, j, k)) (Finset.Icc 0 (d2 - 1)) ≠ 0)
    (_hl : loss3 d0 d1 (fun i j k => f (i, j, k)) (Finset.Icc 0 (d2 - 1)) ≠ 0) (t t' : F) (htt : (FloatP.toK t' : ℝ) ≤ FloatP.toK t)
    (fuel fuel' : Nat) (r r' : RResult F ℝ (ORow F ℝ)) (hr : oaggregate false fuel randMax id (rArray d0 d1 d2 f) t = .ok r)
    (hr' : oaggregate false fuel' randMax id (rArray d0 d1 d2 f) t' = .ok r') : OnlyAdds r r' := by
  obtain ⟨ops, uo, key⟩ := oSetup (F := F) d0 d1 d2 f h0 h1 h2 h2' hF hpos
  rw [key] at hr hr'
  exact adds_aux fl uo.partitioner htt hr hr'

/-- If some call returns there is a threshold from which on a smaller one changes nothing, whatever the rounding of the
parameters. -/
theorem orderedSettles (fl : FloatLaws F ℝ u) (randMax : ℝ) (hr : 2 ≤ randMax) (d0 d1 d2 : Nat) (f : Nat × Nat × Nat → ℝ) (h0 : 0 < d0)
    (h1 : 0 < d1) (h2 : 0 < d2) (h2' : d2 ≤ 65535) (hF : d0 * d1 < 2 ^ 32)
    (hpos : ∀ i j k, i < d0 → j < d1 → k < d2 → 0 ≤ f (i, j, k))
    (_hg : gain3 d0 d1 (fun i j k => f (i, j, k)) (Finset.Icc 0 (d2 - 1)) ≠ 0)
    (_hl : loss3 d0 d1 (fun i j k => f (i, j, k)) (Finset.Icc 0 (d2 - 1)) ≠ 0)
    (hex : ∃ (t : F) (fuel : Nat) (r : _), oaggregate false fuel randMax id (rArray d0 d1 d2 f) t = .ok r) :
    ∃ (t0 : F) (fuel0 : Nat) (r0 : _), oaggregate false fuel0 randMax id (rArray d0 d1 d2 f) t0 = .ok r0 ∧
      ∀ (t : F) (fuel : Nat) (r : _), (FloatP.toK t : ℝ) ≤ FloatP.toK t0 →
        oaggregate false fuel randMax id (rArray d0 d1 d2 f) t = .ok r → SameResult r0 r := by
  obtain ⟨ops, uo, key⟩ := oSetup (F := F) d0 d1 d2 f h0 h1 h2 h2' hF hpos
  simp only [key] at hex ⊢
  exact settles_aux fl uo _ hr hex

/-- Exact parameters: from some positive threshold on nothing is missing, compared with all tilings of the slices. -/
theorem orderedAll (randMax : ℝ) (hr : 2 ≤ randMax) (d0 d1 d2 : Nat) (f : Nat × Nat × Nat → ℝ) (h0 : 0 < d0) (h1 : 0 < d1)
    (h2 : 0 < d2) (h2' : d2 ≤ 65535) (hF : d0 * d1 < 2 ^ 32) (hpos : ∀ i j k, i < d0 → j < d1 → k < d2 → 0 ≤ f (i, j, k)) :
    let gain := gain3 d0 d1 (fun i j k => f (i, j, k))
    let loss := loss3 d0 d1 (fun i j k => f (i, j, k))
    let all := Finset.Icc 0 (d2 - 1)
    gain all ≠ 0 → loss all ≠ 0 →
    ∃ T, NothingMissing (fun t fuel => oaggregate (F := ℝ) false fuel randMax id (rArray d0 d1 d2 f) t) (Tiles 0 d2)
      (relative gain loss all (fun I : Nat × Nat => Finset.Icc I.1 I.2)) T := by
  intro gain loss all hg hl
  obtain ⟨ops, uo, key⟩ := oSetup (F := ℝ) d0 d1 d2 f h0 h1 h2 h2' hF hpos
  refine all_aux uo _ _ (fun t fuel => key fuel randMax t) (fun t ht => ?_)
  obtain ⟨N, hN⟩ := C49.ordered (exactLaws ℝ) randMax hr t ht (by simpa using ht.le)
  exact ⟨N, fun fuel hf => (hN d0 d1 d2 f h0 h1 h2 h2' hF hpos hg hl fuel hf).imp fun _ h => h.1⟩

/-! ## `haggregate` -/

/-- Two calls that return, `t' ≤ t`: the smaller threshold only adds. -/
theorem hierarchical (fl : FloatLaws F ℝ u) (randMax : ℝ) (d0 d1 d2 : Nat) (f : Nat × Nat × Nat → ℝ) (h : List Int) (h0 : 0 < d0)
    (h1 : 0 < d1) (hF : d1 * d2 < 2 ^ 32)
    (tree : IsTree d0 (h.map (· - 1)) ((h.map (· - 1)).length - 1)) (near : NearestFirst d0 (h.map (· - 1)))
    (hlt : d0 < (h.map (· - 1)).length) (hpos : ∀ i j k, i < d0 → j < d1 → k < d2 → 0 ≤ f (i, j, k))
    (_hg : gain3 d1 d2 (fun j k l => f (l, j, k)) (Finset.range d0) ≠ 0)
    (_hl : loss3 d1 d2 (fun j k l => f (l, j, k)) (Finset.range d0) ≠ 0) (t t' : F) (htt : (FloatP.toK t' : ℝ) ≤ FloatP.toK t)
    (fuel fuel' : Nat) (r r' : RResult F ℝ (HRow F ℝ)) (hr : haggregate false fuel randMax id (rArray d0 d1 d2 f) h t = .ok r)
    (hr' : haggregate false fuel' randMax id (rArray d0 d1 d2 f) h t' = .ok r') : OnlyAdds r r' := by
  obtain ⟨ops, uo, key⟩ := hSetup (F := F) d0 d1 d2 f h h0 h1 hF tree near hlt hpos
  rw [key] at hr hr'
  exact adds_aux fl uo.partitioner htt hr hr'

/-- From some threshold on a smaller one changes nothing. -/
theorem hierarchicalSettles (fl : FloatLaws F ℝ u) (randMax : ℝ) (hr : 2 ≤ randMax) (d0 d1 d2 : Nat) (f : Nat × Nat × Nat → ℝ)
    (h : List Int) (h0 : 0 < d0) (h1 : 0 < d1) (hF : d1 * d2 < 2 ^ 32)
    (tree : IsTree d0 (h.map (· - 1)) ((h.map (· - 1)).length - 1)) (near : NearestFirst d0 (h.map (· - 1)))
    (hlt : d0 < (h.map (· - 1)).length) (hpos : ∀ i j k, i < d0 → j < d1 → k < d2 → 0 ≤ f (i, j, k))
    (_hg : gain3 d1 d2 (fun j k l => f (l, j, k)) (Finset.range d0) ≠ 0)
    (_hl : loss3 d1 d2 (fun j k l => f (l, j, k)) (Finset.range d0) ≠ 0)
    (hex : ∃ (t : F) (fuel : Nat) (r : _), haggregate false fuel randMax id (rArray d0 d1 d2 f) h t = .ok r) :
    ∃ (t0 : F) (fuel0 : Nat) (r0 : _), haggregate false fuel0 randMax id (rArray d0 d1 d2 f) h t0 = .ok r0 ∧
      ∀ (t : F) (fuel : Nat) (r : _), (FloatP.toK t : ℝ) ≤ FloatP.toK t0 →
        haggregate false fuel randMax id (rArray d0 d1 d2 f) h t = .ok r → SameResult r0 r := by
  obtain ⟨ops, uo, key⟩ := hSetup (F := F) d0 d1 d2 f h h0 h1 hF tree near hlt hpos
  simp only [key] at hex ⊢
  exact settles_aux fl uo _ hr hex

/-- Exact parameters: from some positive threshold on nothing is missing, compared with all sets of nodes such that every leaf is
below exactly one of them. -/
theorem hierarchicalAll (randMax : ℝ) (hr : 2 ≤ randMax) (d0 d1 d2 : Nat) (f : Nat × Nat × Nat → ℝ) (h : List Int) (h0 : 0 < d0)
    (h1 : 0 < d1) (hF : d1 * d2 < 2 ^ 32)
    (tree : IsTree d0 (h.map (· - 1)) ((h.map (· - 1)).length - 1)) (near : NearestFirst d0 (h.map (· - 1)))
    (hlt : d0 < (h.map (· - 1)).length) (hpos : ∀ i j k, i < d0 → j < d1 → k < d2 → 0 ≤ f (i, j, k)) :
    let gain := gain3 d1 d2 (fun j k l => f (l, j, k))
    let loss := loss3 d1 d2 (fun j k l => f (l, j, k))
    gain (Finset.range d0) ≠ 0 → loss (Finset.range d0) ≠ 0 →
    ∃ T, NothingMissing (fun t fuel => haggregate (F := ℝ) false fuel randMax id (rArray d0 d1 d2 f) h t)
      (LeafCover d0 (h.map (· - 1))) (relative gain loss (Finset.range d0) (leavesUnder d0 (h.map (· - 1)))) T := by
  intro gain loss hg hl
  obtain ⟨ops, uo, key⟩ := hSetup (F := ℝ) d0 d1 d2 f h h0 h1 hF tree near hlt hpos
  refine all_aux uo _ _ (fun t fuel => key fuel randMax t) (fun t ht => ?_)
  obtain ⟨N, hN⟩ := C49.hierarchical (exactLaws ℝ) randMax hr t ht (by simpa using ht.le)
  exact ⟨N, fun fuel hf => (hN d0 d1 d2 f h h0 h1 hF tree near hlt hpos hg hl fuel hf).imp fun _ h => h.1⟩

/-! ## `daggregate` -/

/-- Two calls that return, `t' ≤ t`: the smaller threshold only adds. -/
theorem spatiotemporal (fl : FloatLaws F ℝ u) (randMax : ℝ) (d0 d1 d2 : Nat) (f : Nat × Nat × Nat → ℝ) (h : List Int) (h0 : 0 < d0)
    (h1 : 0 < d1) (h2 : 0 < d2) (h2' : d2 ≤ 65535) (hb : d0 * d2 < 2147483648)
    (tree : IsTree d0 (h.map (· - 1)) ((h.map (· - 1)).length - 1)) (near : NearestFirst d0 (h.map (· - 1)))
    (hlt : d0 < (h.map (· - 1)).length) (hpos : ∀ i j k, i < d0 → j < d1 → k < d2 → 0 ≤ f (i, j, k))
    (_hg : gain3 d1 1 (fun j _ (c : Nat × Nat) => f (c.1, j, c.2)) (Finset.range d0 ×ˢ Finset.Icc 0 (d2 - 1)) ≠ 0)
    (_hl : loss3 d1 1 (fun j _ (c : Nat × Nat) => f (c.1, j, c.2)) (Finset.range d0 ×ˢ Finset.Icc 0 (d2 - 1)) ≠ 0)
    (t t' : F) (htt : (FloatP.toK t' : ℝ) ≤ FloatP.toK t)
    (fuel fuel' : Nat) (r r' : RResult F ℝ (DRow F ℝ)) (hr : daggregate false fuel randMax id (rArray d0 d1 d2 f) h t = .ok r)
    (hr' : daggregate false fuel' randMax id (rArray d0 d1 d2 f) h t' = .ok r') : OnlyAdds r r' := by
  obtain ⟨ops, uo, key⟩ := dSetup (F := F) d0 d1 d2 f h h0 h1 h2 h2' hb tree near hlt hpos
  rw [key] at hr hr'
  exact adds_aux fl uo.partitioner htt hr hr'

/-- From some threshold on a smaller one changes nothing. -/
theorem spatiotemporalSettles (fl : FloatLaws F ℝ u) (randMax : ℝ) (hr : 2 ≤ randMax) (d0 d1 d2 : Nat) (f : Nat × Nat × Nat → ℝ)
    (h : List Int) (h0 : 0 < d0) (h1 : 0 < d1) (h2 : 0 < d2) (h2' : d2 ≤ 65535) (hb : d0 * d2 < 2147483648)
    (tree : IsTree d0 (h.map (· - 1)) ((h.map (· - 1)).length - 1)) (near : NearestFirst d0 (h.map (· - 1)))
    (hlt : d0 < (h.map (· - 1)).length) (hpos : ∀ i j k, i < d0 → j < d1 → k < d2 → 0 ≤ f (i, j, k))
    (_hg : gain3 d1 1 (fun j _ (c : Nat × Nat) => f (c.1, j, c.2)) (Finset.range d0 ×ˢ Finset.Icc 0 (d2 - 1)) ≠ 0)
    (_hl : loss3 d1 1 (fun j _ (c : Nat × Nat) => f (c.1, j, c.2)) (Finset.range d0 ×ˢ Finset.Icc 0 (d2 - 1)) ≠ 0)
    (hex : ∃ (t : F) (fuel : Nat) (r : _), daggregate false fuel randMax id (rArray d0 d1 d2 f) h t = .ok r) :
    ∃ (t0 : F) (fuel0 : Nat) (r0 : _), daggregate false fuel0 randMax id (rArray d0 d1 d2 f) h t0 = .ok r0 ∧
      ∀ (t : F) (fuel : Nat) (r : _), (FloatP.toK t : ℝ) ≤ FloatP.toK t0 →
        daggregate false fuel randMax id (rArray d0 d1 d2 f) h t = .ok r → SameResult r0 r := by
  obtain ⟨ops, uo, key⟩ := dSetup (F := F) d0 d1 d2 f h h0 h1 h2 h2' hb tree near hlt hpos
  simp only [key] at hex ⊢
  exact settles_aux fl uo _ hr hex

/-- Exact parameters: from some positive threshold on nothing is missing, compared with all coarse-first partitions (see C21). -/
theorem spatiotemporalAll (randMax : ℝ) (hr : 2 ≤ randMax) (d0 d1 d2 : Nat) (f : Nat × Nat × Nat → ℝ) (h : List Int) (h0 : 0 < d0)
    (h1 : 0 < d1) (h2 : 0 < d2) (h2' : d2 ≤ 65535) (hb : d0 * d2 < 2147483648)
    (tree : IsTree d0 (h.map (· - 1)) ((h.map (· - 1)).length - 1)) (near : NearestFirst d0 (h.map (· - 1)))
    (hlt : d0 < (h.map (· - 1)).length) (hpos : ∀ i j k, i < d0 → j < d1 → k < d2 → 0 ≤ f (i, j, k)) :
    let gain := gain3 d1 1 (fun j _ (c : Nat × Nat) => f (c.1, j, c.2))
    let loss := loss3 d1 1 (fun j _ (c : Nat × Nat) => f (c.1, j, c.2))
    let all := Finset.range d0 ×ˢ Finset.Icc 0 (d2 - 1)
    gain all ≠ 0 → loss all ≠ 0 →
    ∃ T, NothingMissing (fun t fuel => daggregate (F := ℝ) false fuel randMax id (rArray d0 d1 d2 f) h t)
      (fun L => CellCover d0 (h.map (· - 1)) d2 L ∧ CoarseFirst (h.map (· - 1)) L)
      (relative gain loss all (fun r : Rect => leavesUnder d0 (h.map (· - 1)) r.node ×ˢ Finset.Icc r.first r.last)) T := by
  intro gain loss all hg hl
  obtain ⟨ops, uo, key⟩ := dSetup (F := ℝ) d0 d1 d2 f h h0 h1 h2 h2' hb tree near hlt hpos
  refine all_aux uo _ _ (fun t fuel => key fuel randMax t) (fun t ht => ?_)
  obtain ⟨N, hN⟩ := C49.spatiotemporal (exactLaws ℝ) randMax hr t ht (by simpa using ht.le)
  exact ⟨N, fun fuel hf => (hN d0 d1 d2 f h h0 h1 h2 h2' hb tree near hlt hpos hg hl fuel hf).imp fun _ h => h.1⟩

/-! ## The hypotheses are met by concrete inputs

The array and the hierarchy of `R/example_simple.R`. -/

/-- Exact parameters. -/
example : (∃ T, 0 < T ∧ ∀ t, 0 < t → t ≤ T → ∃ fuel r,
      oaggregate (F := ℝ) false fuel 2147483647 id (rArray 2 2 5 C49.shippedAt) t = .ok r ∧ ∃ e ∈ r.qualities, 0 ≤ e.gain - e.loss) ∧
    (∃ T, 0 < T ∧ ∀ t, 0 < t → t ≤ T → ∃ fuel r,
      haggregate (F := ℝ) false fuel 2147483647 id (rArray 2 2 5 C49.shippedAt) [3, 3, 0] t = .ok r) ∧
    (∃ T, 0 < T ∧ ∀ t, 0 < t → t ≤ T → ∃ fuel r,
      daggregate (F := ℝ) false fuel 2147483647 id (rArray 2 2 5 C49.shippedAt) [3, 3, 0] t = .ok r) := by
  have tree : IsTree 2 [2, 2, -1] 2 := .ofCheck (fun h => if h < 2 then 1 else 0) (by decide) (by decide) (by decide) (by decide)
  have near : NearestFirst 2 [2, 2, -1] :=
    balanced_nearestFirst tree (.ofCheck (fun h => if h < 2 then 0 else 1) (by decide) (by decide) (by decide))
  obtain ⟨⟨g, l⟩, ⟨g', l'⟩, ⟨g'', l''⟩, _⟩ := C94.shipped_aux
  obtain ⟨T, hT⟩ := orderedAll 2147483647 (by norm_num) 2 2 5 C49.shippedAt (by norm_num) (by norm_num) (by norm_num) (by norm_num)
    (by norm_num) (fun i j k _ _ _ => C94.shippedPos_aux i j k) g l
  obtain ⟨T', hT'⟩ := hierarchicalAll 2147483647 (by norm_num) 2 2 5 C49.shippedAt [3, 3, 0] (by norm_num) (by norm_num) (by norm_num)
    tree near (by decide) (fun i j k _ _ _ => C94.shippedPos_aux i j k) g' l'
  obtain ⟨T'', hT''⟩ := spatiotemporalAll 2147483647 (by norm_num) 2 2 5 C49.shippedAt [3, 3, 0] (by norm_num) (by norm_num) (by norm_num)
    (by norm_num) (by norm_num) tree near (by decide) (fun i j k _ _ _ => C94.shippedPos_aux i j k) g'' l''
  refine ⟨⟨T, hT.pos, fun t t0 t1 => ?_⟩, ⟨T', hT'.pos, fun t t0 t1 => ?_⟩, ⟨T'', hT''.pos, fun t t0 t1 => ?_⟩⟩
  · obtain ⟨N, hN⟩ := hT.returns t t0
    obtain ⟨r, e⟩ := hN N (le_refl _)
    refine ⟨N, r, e, ?_⟩
    -- the five single slices, at `p = 1/2`
    obtain ⟨e', he', hv⟩ := hT.all t N r t0 t1 e (1 / 2) (by norm_num) (by norm_num) [(0, 0), (1, 1), (2, 2), (3, 3), (4, 4)]
      (.cons (by omega) (by omega) (.cons (by omega) (by omega) (.cons (by omega) (by omega) (.cons (by omega) (by omega)
        (.cons (by omega) (by omega) (.nil 5))))))
    refine ⟨e', he', ?_⟩
    have z : ∀ a : Nat, gain3 2 2 (fun i j k => C49.shippedAt (i, j, k)) (Finset.Icc a a) = 0 ∧
        loss3 2 2 (fun i j k => C49.shippedAt (i, j, k)) (Finset.Icc a a) = 0 := by
      intro a
      unfold gain3 loss3
      constructor <;> simp [lossOver, gainOver]
    simp only [gainOf, lossOf, relative, (z _).1, (z _).2, zero_div, List.map_cons, List.map_nil, List.sum_cons, List.sum_nil] at hv
    linarith
  · obtain ⟨N, hN⟩ := hT'.returns t t0
    obtain ⟨r, e⟩ := hN N (le_refl _)
    exact ⟨N, r, e⟩
  · obtain ⟨N, hN⟩ := hT''.returns t t0
    obtain ⟨r, e⟩ := hN N (le_refl _)
    exact ⟨N, r, e⟩

/-- IEEE binary32 parameters, thresholds 1/4 and 1/1024. -/
example (R : Rounding) (t t' : OverReal (B32 R)) (ht : t.1 = 1 / 4) (ht' : t'.1 = 1 / 1024) : ∃ fuel r r',
    oaggregate (F := OverReal (B32 R)) false fuel 2147483647 id (rArray 2 2 5 C49.shippedAt) t = .ok r ∧
    oaggregate (F := OverReal (B32 R)) false fuel 2147483647 id (rArray 2 2 5 C49.shippedAt) t' = .ok r' ∧ OnlyAdds r r' := by
  have e1 : (FloatP.toK t : ℝ) = 1 / 4 := by
    show ((t.1 : ℚ) : ℝ) = 1 / 4
    rw [ht]; norm_num
  have e2 : (FloatP.toK t' : ℝ) = 1 / 1024 := by
    show ((t'.1 : ℚ) : ℝ) = 1 / 1024
    rw [ht']; norm_num
  obtain ⟨⟨g, l⟩, _⟩ := C94.shipped_aux
  obtain ⟨N, h⟩ := C49.ordered (overRealLaws (b32Laws R)) 2147483647 (by norm_num) t (by rw [e1]; norm_num) (by rw [e1]; norm_num)
  obtain ⟨N', h'⟩ := C49.ordered (overRealLaws (b32Laws R)) 2147483647 (by norm_num) t' (by rw [e2]; norm_num) (by rw [e2]; norm_num)
  obtain ⟨r, e, _⟩ := h 2 2 5 C49.shippedAt (by norm_num) (by norm_num) (by norm_num) (by norm_num) (by norm_num)
    (fun i j k _ _ _ => C94.shippedPos_aux i j k) g l (max N N') (le_max_left _ _)
  obtain ⟨r', e', _⟩ := h' 2 2 5 C49.shippedAt (by norm_num) (by norm_num) (by norm_num) (by norm_num) (by norm_num)
    (fun i j k _ _ _ => C94.shippedPos_aux i j k) g l (max N N') (le_max_right _ _)
  exact ⟨_, r, r', e, e', ordered (overRealLaws (b32Laws R)) 2147483647 2 2 5 C49.shippedAt (by norm_num) (by norm_num) (by norm_num)
    (by norm_num) (by norm_num) (fun i j k _ _ _ => C94.shippedPos_aux i j k) g l t t' (by rw [e1, e2]; norm_num) _ _ r r' e e'⟩

end Lp.C95
