import Verif.Proofs.AreaGap
import Verif.Props.C89
import Verif.Props.C66

/-!
# C90 — the threshold bounds how much of the area under the curve is missed

`C66.Refines ops t t' lo hi st st'`: `st` and `st'` are the results of two searches over `[lo, hi]` with thresholds `t' ≤ t`.
-/

namespace Lp.C90
open Spec
variable {F K P T : Type} [Field K] [LinearOrder K] [IsStrictOrderedRing K] [FloatP F K] {u : K}

theorem ends_aux (fl : FloatLaws F K u) (ops : PartOps F K P T) (ho : IsPartitioner ops) {t lo hi : F}
    (h0 : (0 : K) ≤ FloatP.toK lo) (hlt : (FloatP.toK lo : K) < FloatP.toK hi) (h1 : (FloatP.toK hi : K) ≤ 1)
    {fuel : Nat} {s0 s : PState F K P T} (hs : computeBestPartitions ops false fuel t lo hi s0 = .ok s) :
    (∃ X, ops.best lo = .ok X ∧ (s.qualityList.map Prod.snd).head? = some (ops.quality X)) ∧
    ∃ X, ops.best hi = .ok X ∧ (s.qualityList.map Prod.snd).getLast? = some (ops.quality X) := by
  obtain ⟨c1, _, _, c4, c5, c6, _, X, e, d1, d2, d3⟩ := C28.list fl ops ho t lo hi h0 hlt h1 fuel s0 s hs
  constructor
  · rw [c6, List.map_map, List.head?_map]
    rw [← c4, List.head?_map] at c1
    cases hh : s.partitions.head? with
    | none => rw [hh] at c1; simp at c1
    | some y =>
      rw [hh] at c1
      simp only [Option.map_some, Option.some.injEq] at c1
      have := c5 y (List.mem_of_mem_head? hh)
      rw [c1] at this
      exact ⟨_, this, rfl⟩
  · rw [c6, List.map_map, List.getLast?_map, d2]
    refine ⟨X, d1, ?_⟩
    have := c5 e (List.mem_of_getLast? d2)
    simp only [Option.map_some, Function.comp]
    rw [isPartitioner_sameQ ho _ _ _ _ d1 this d3]

/-- Two searches with thresholds `t' ≤ t`: `computeAUC` for `t'` exceeds that for `t` by at most an eighth of the threshold `t`
(and the rounding `u` of differences of parameters) times the square of `S`, the difference of gain + loss between the best partitions at the
two ends, plus the rounding `e` of `1 - x` times `Λ`, the difference of their losses, times `S`. -/
theorem area (fl : FloatLaws F K u) (ops : PartOps F K P T) (ho : IsPartitioner ops) (t t' lo hi : F)
    (st st' : PState F K P T) (h : C66.Refines ops t t' lo hi st st') (ht : (0 : K) ≤ FloatP.toK t) (e : K)
    (he : ∀ x : F, (0 : K) ≤ FloatP.toK x → (FloatP.toK x : K) ≤ 1 → |(FloatP.toK (FloatP.oneSub x) : K) - (1 - FloatP.toK x)| ≤ e)
    (X Y : P) (hX : ops.best lo = .ok X) (hY : ops.best hi = .ok Y) (a a' : K)
    (ha : computeAUC id st = .ok a) (ha' : computeAUC id st' = .ok a') :
    let S := ((ops.quality Y).gain + (ops.quality Y).loss) - ((ops.quality X).gain + (ops.quality X).loss)
    let Λ := (ops.quality Y).loss - (ops.quality X).loss
    a ≤ a' ∧ a' ≤ a + (FloatP.toK t + u) * S ^ 2 / 8 + e * Λ * S := by
  intro S Λ
  have mono : a ≤ a' := by
    obtain ⟨b, b', h1, h2, h3⟩ := C66.auc fl ops ho t t' lo hi st st' h
    obtain rfl := Except.ok.inj (ha.symm.trans h1)
    obtain rfl := Except.ok.inj (ha'.symm.trans h2)
    exact h3
  refine ⟨mono, ?_⟩
  have hsub := C66.curve fl ops ho t t' lo hi st st' h
  obtain ⟨fuel, s0, hc⟩ := h.coarse
  obtain ⟨fuel', s0', hf⟩ := h.fine
  rw [C32.value fl ops ho t lo hi h.lo0 h.lt h.hi1 fuel s0 st hc] at ha
  rw [C32.value fl ops ho t' lo hi h.lo0 h.lt h.hi1 fuel' s0' st' hf] at ha'
  obtain rfl := Except.ok.inj ha
  obtain rfl := Except.ok.inj ha'
  have i' := C45.increasing fl ops ho t' lo hi h.lo0 h.lt h.hi1 fuel' s0' st' hf
  obtain ⟨⟨X1, x1, hh⟩, Y1, y1, hl⟩ := ends_aux fl ops ho h.lo0 h.lt h.hi1 hc
  obtain ⟨⟨X2, x2, hh'⟩, Y2, y2, hl'⟩ := ends_aux fl ops ho h.lo0 h.lt h.hi1 hf
  obtain rfl := Except.ok.inj (hX.symm.trans x1)
  obtain rfl := Except.ok.inj (hX.symm.trans x2)
  obtain rfl := Except.ok.inj (hY.symm.trans y1)
  obtain rfl := Except.ok.inj (hY.symm.trans y2)
  have gaps := narrow_gaps fl ho h.lo0 h.lt h.hi1 hc
  have origin : ∀ v ∈ st'.qualityList.map Prod.snd, ∃ z Z, ops.best z = .ok Z ∧ ops.quality Z = v := by
    intro v hv
    obtain ⟨_, _, _, _, c5, c6, _⟩ := C28.list fl ops ho t' lo hi h.lo0 h.lt h.hi1 fuel' s0' st' hf
    rw [c6, List.map_map] at hv
    obtain ⟨b, hb, rfl⟩ := List.mem_map.mp hv
    exact ⟨b.1, b.2, c5 b hb, rfl⟩
  have e0 : 0 ≤ e := le_trans (abs_nonneg _) (he lo h.lo0 (le_trans h.lt.le h.hi1))
  have tu : 0 ≤ (FloatP.toK t : K) + u := add_nonneg ht fl.err_nonneg
  generalize st.qualityList.map Prod.snd = L at *
  generalize st'.qualityList.map Prod.snd = L' at *
  cases L with
  | nil => simp at hh
  | cons q l =>
    cases L' with
    | nil => simp at hh'
    | cons q' l' =>
      simp only [List.head?_cons, Option.some.injEq] at hh hh'
      subst hh hh'
      -- all points lie between the ends
      have inside : ∀ v ∈ ops.quality X :: l', (ops.quality X).loss ≤ v.loss ∧ v.loss ≤ (ops.quality Y).loss := by
        intro v hv
        constructor
        · rcases List.mem_cons.mp hv with rfl | hv
          · exact le_refl _
          · exact ((List.pairwise_cons.mp i').1 v hv).2.1
        · obtain ⟨m, em⟩ := List.getLast?_eq_some_iff.mp hl'
          rw [em] at hv i'
          rcases List.mem_append.mp hv with hv | hv
          · exact ((List.pairwise_append.mp i').2.2 v hv _ (by simp)).2.1
          · simp at hv; subst hv; exact le_refl _
      have L0 : 0 ≤ Λ := by
        have := (inside _ (List.mem_of_getLast? hl')).1
        exact sub_nonneg.mpr this
      have close : ∀ v ∈ ops.quality X :: l', ∀ w ∈ ops.quality X :: l', |v.loss - w.loss| ≤ Λ := by
        intro v hv w hw
        have h1 := inside v hv
        have h2 := inside w hw
        rw [abs_le]
        constructor
        · show -((ops.quality Y).loss - (ops.quality X).loss) ≤ v.loss - w.loss
          linarith [h1.1, h2.2]
        · show v.loss - w.loss ≤ (ops.quality Y).loss - (ops.quality X).loss
          linarith [h1.2, h2.1]
      have gaps' : List.IsChain (fun a b : Quality K => (a ∈ ops.quality X :: l ∧ b ∈ ops.quality X :: l) ∧
          ∃ x y X Y, (0 : K) ≤ num x ∧ (num x : K) < num y ∧ (num y : K) ≤ 1 ∧
          (num y : K) - num x ≤ num t + u ∧ ops.best x = .ok X ∧ ops.best y = .ok Y ∧ ops.quality X = a ∧ ops.quality Y = b)
          (ops.quality X :: l) := by
        rw [List.isChain_iff_getElem] at gaps ⊢
        intro i hi
        exact ⟨⟨List.getElem_mem _, List.getElem_mem _⟩, gaps i hi⟩
      have key := area_gap tu (mul_nonneg e0 L0) l l' _ _ (List.cons_sublist_cons.mp hsub) i'
        (gaps'.imp (by
          rintro a b ⟨⟨ma, mb⟩, x, y, X', Y', x0, xy, y1, hgap, ex, ey, rfl, rfl⟩ p ep
          refine excess (he x x0 (le_trans xy.le y1)) (he y (le_trans x0 xy.le) y1) e0 xy hgap (fun v hv => ?_) ep
          obtain ⟨z, Z, ez, rfl⟩ := origin v hv
          exact ⟨close _ hv _ (hsub.mem ma), close _ hv _ (hsub.mem mb),
            (isPartitioner_curve ho).opt x z X' Z ex ez, (isPartitioner_curve ho).opt y z Y' Z ey ez⟩)) hl hl'
      have hS : qSum (ops.quality Y) - qSum (ops.quality X) = S := rfl
      rw [hS] at key
      have : (num t : K) = FloatP.toK t := rfl
      linarith

/-- With exact parameters. -/
theorem exact (ops : PartOps K K P T) (ho : IsPartitioner ops) (t t' lo hi : K) (st st' : PState K K P T)
    (h : C66.Refines ops t t' lo hi st st') (ht : 0 ≤ t)
    (X Y : P) (hX : ops.best lo = .ok X) (hY : ops.best hi = .ok Y) (a a' : K)
    (ha : computeAUC id st = .ok a) (ha' : computeAUC id st' = .ok a') :
    a ≤ a' ∧ a' ≤ a + t *
      (((ops.quality Y).gain + (ops.quality Y).loss) - ((ops.quality X).gain + (ops.quality X).loss)) ^ 2 / 8 := by
  have := area (exactLaws K) ops ho t t' lo hi st st' h ht 0 (fun x _ _ => by simp) X Y hX hY a a' ha ha'
  simpa using this

/-! ## The functions called from R -/

theorem grows_aux (fl : FloatLaws F K u) {ops : PartOps F K P T} (ho : IsPartitioner ops) (p p' : F)
    (h0 : (0 : K) ≤ FloatP.toK p) (hlt : (FloatP.toK p : K) < FloatP.toK p') (h1 : (FloatP.toK p' : K) ≤ 1) (X Y : P)
    (e : ops.best p = .ok X) (e' : ops.best p' = .ok Y) : C24.Grows (ops.quality X) (ops.quality Y) := by
  cases ho with
  | ordered q n f hq => exact C24.ordered fl q n f hq p p' h0 hlt h1 X Y e e'
  | hierarchical leaves parents md q Q hmd hl hq => exact C24.hierarchical fl leaves parents md hmd hl q Q hq p p' h0 hlt h1 X Y e e'
  | spatiotemporal leaves parents md n q Q hmd hn0 hn hq =>
    exact C24.spatiotemporal fl leaves parents md hmd n hn0 hn q Q hq p p' h0 hlt h1 X Y e e'

theorem sheets_aux {F : Type} [FloatP F ℝ] {u e : ℝ} (fl : FloatLaws F ℝ u) (he : C89.ComplementErr F e) {P T A R : Type}
    {ops : PartOps F ℝ P T} {part rival : List A → Prop} {quality : A → Quality ℝ} (uo : UnitOps ops part rival quality)
    {rowFn : T → R} {fuel fuel' : Nat} {randMax : ℝ} {t t' : F} (ht : (0 : ℝ) ≤ FloatP.toK t)
    (htt : (FloatP.toK t' : ℝ) ≤ FloatP.toK t) {r r' : RResult F ℝ R}
    (h : rSearch ops rowFn false fuel randMax id t = .ok r) (h' : rSearch ops rowFn false fuel' randMax id t' = .ok r') :
    r.auc ≤ r'.auc ∧ r'.auc ≤ r.auc + (FloatP.toK t + u) / 2 + 2 * e := by
  have z0 : (FloatP.toK (FloatP.zero : F) : ℝ) = 0 := fl.zero
  have z1 : (FloatP.toK (FloatP.oneSub (FloatP.zero : F)) : ℝ) = 1 := fl.oneSub_zero _ z0
  obtain ⟨st, hst, _, ha, _, _⟩ := rSearch_ok h
  obtain ⟨st', hst', _, ha', _, _⟩ := rSearch_ok h'
  obtain ⟨X, L, x1, x2, x3, _⟩ := uo.best FloatP.zero z0.ge (by rw [z0]; norm_num)
  obtain ⟨Y, M, y1, y2, y3, _⟩ := uo.best (FloatP.oneSub FloatP.zero) (by rw [z1]; norm_num) z1.le
  have ref : C66.Refines ops t t' FloatP.zero (FloatP.oneSub FloatP.zero) st st' :=
    ⟨z0.ge, by rw [z0, z1]; norm_num, z1.le, htt, ⟨_, _, hst⟩, ⟨_, _, hst'⟩⟩
  obtain ⟨m1, m2⟩ := area fl ops uo.partitioner t t' _ _ st st' ref ht e he X Y x1 y1 _ _ ha ha'
  refine ⟨m1, ?_⟩
  have a1 := uo.unit L x2
  have a2 := uo.unit M y2
  have g := grows_aux fl uo.partitioner FloatP.zero (FloatP.oneSub FloatP.zero) z0.ge (by rw [z0, z1]; norm_num) z1.le X Y x1 y1
  have e0 : 0 ≤ e := le_trans (abs_nonneg _) (he FloatP.zero z0.ge (by rw [z0]; norm_num))
  have tu : 0 ≤ (FloatP.toK t : ℝ) + u := add_nonneg ht fl.err_nonneg
  rw [x3, y3] at m2 g
  dsimp only at m2 g
  obtain ⟨g1, g2⟩ := g
  dsimp only at g1 g2
  generalize gainOf quality L = gx at *
  generalize lossOf quality L = lx at *
  generalize gainOf quality M = gy at *
  generalize lossOf quality M = ly at *
  have S0 : 0 ≤ gy + ly - (gx + lx) := by linarith
  have S2 : gy + ly - (gx + lx) ≤ 2 := by linarith [a1.1, a1.2.2.1, a2.2.1, a2.2.2.2]
  have sq : (gy + ly - (gx + lx)) ^ 2 ≤ 4 := by nlinarith
  have b1 : (FloatP.toK t + u) * (gy + ly - (gx + lx)) ^ 2 ≤ (FloatP.toK t + u) * 4 := mul_le_mul_of_nonneg_left sq tu
  have b2 : e * (ly - lx) ≤ e * 1 := mul_le_mul_of_nonneg_left (by linarith [a1.2.2.1, a2.2.2.2]) e0
  have b3 : e * (ly - lx) * (gy + ly - (gx + lx)) ≤ e * 1 * 2 :=
    mul_le_mul b2 S2 S0 (by linarith)
  linarith

/-- `oaggregate(micro, th)` on a non-negative array whose whole has a gain and a loss, with two thresholds `t' ≤ t`: if both calls return, the `AUC` for `t'` is not smaller and
exceeds the one for `t` by at most `t / 2`, up to rounding of the parameters. -/
theorem ordered {F : Type} [FloatP F ℝ] {u e : ℝ} (fl : FloatLaws F ℝ u) (he : C89.ComplementErr F e) (randMax : ℝ) (t t' : F)
    (ht : (0 : ℝ) ≤ FloatP.toK t) (htt : (FloatP.toK t' : ℝ) ≤ FloatP.toK t) (d0 d1 d2 : Nat) (f : Nat × Nat × Nat → ℝ)
    (h0 : 0 < d0) (h1 : 0 < d1) (h2 : 0 < d2) (h2' : d2 ≤ 65535) (hF : d0 * d1 < 2 ^ 32)
    (hpos : ∀ i j k, i < d0 → j < d1 → k < d2 → 0 ≤ f (i, j, k))
    (_hg : gain3 d0 d1 (fun i j k => f (i, j, k)) (Finset.Icc 0 (d2 - 1)) ≠ 0)
    (_hl : loss3 d0 d1 (fun i j k => f (i, j, k)) (Finset.Icc 0 (d2 - 1)) ≠ 0) (fuel fuel' : Nat) (r r' : RResult F ℝ (ORow F ℝ))
    (hr : oaggregate false fuel randMax id (rArray d0 d1 d2 f) t = .ok r)
    (hr' : oaggregate false fuel' randMax id (rArray d0 d1 d2 f) t' = .ok r') :
    r.auc ≤ r'.auc ∧ r'.auc ≤ r.auc + (FloatP.toK t + u) / 2 + 2 * e := by
  obtain ⟨ops, uo, key⟩ := oSetup (F := F) d0 d1 d2 f h0 h1 h2 h2' hF hpos
  rw [key] at hr hr'
  exact sheets_aux fl he uo ht htt hr hr'

/-- `haggregate(micro, h, th)`: the same. -/
theorem hierarchical {F : Type} [FloatP F ℝ] {u e : ℝ} (fl : FloatLaws F ℝ u) (he : C89.ComplementErr F e) (randMax : ℝ) (t t' : F)
    (ht : (0 : ℝ) ≤ FloatP.toK t) (htt : (FloatP.toK t' : ℝ) ≤ FloatP.toK t) (d0 d1 d2 : Nat) (f : Nat × Nat × Nat → ℝ)
    (h : List Int) (h0 : 0 < d0) (h1 : 0 < d1) (hF : d1 * d2 < 2 ^ 32)
    (hpos : ∀ i j k, i < d0 → j < d1 → k < d2 → 0 ≤ f (i, j, k)) :
    let parents := h.map (· - 1)
    IsTree d0 parents (parents.length - 1) → NearestFirst d0 parents → d0 < parents.length →
    gain3 d1 d2 (fun j k l => f (l, j, k)) (Finset.range d0) ≠ 0 → loss3 d1 d2 (fun j k l => f (l, j, k)) (Finset.range d0) ≠ 0 →
    ∀ (fuel fuel' : Nat) (r r' : RResult F ℝ (HRow F ℝ)),
    haggregate false fuel randMax id (rArray d0 d1 d2 f) h t = .ok r →
    haggregate false fuel' randMax id (rArray d0 d1 d2 f) h t' = .ok r' →
    r.auc ≤ r'.auc ∧ r'.auc ≤ r.auc + (FloatP.toK t + u) / 2 + 2 * e := by
  intro parents tree near hlt _ _ fuel fuel' r r' hr hr'
  obtain ⟨ops, uo, key⟩ := hSetup (F := F) d0 d1 d2 f h h0 h1 hF tree near hlt hpos
  rw [key] at hr hr'
  exact sheets_aux fl he uo ht htt hr hr'

/-- `daggregate(micro, h, th)`: the same. -/
theorem spatiotemporal {F : Type} [FloatP F ℝ] {u e : ℝ} (fl : FloatLaws F ℝ u) (he : C89.ComplementErr F e) (randMax : ℝ) (t t' : F)
    (ht : (0 : ℝ) ≤ FloatP.toK t) (htt : (FloatP.toK t' : ℝ) ≤ FloatP.toK t) (d0 d1 d2 : Nat) (f : Nat × Nat × Nat → ℝ)
    (h : List Int) (h0 : 0 < d0) (h1 : 0 < d1) (h2 : 0 < d2) (h2' : d2 ≤ 65535) (hb : d0 * d2 < 2147483648)
    (hpos : ∀ i j k, i < d0 → j < d1 → k < d2 → 0 ≤ f (i, j, k)) :
    let parents := h.map (· - 1)
    IsTree d0 parents (parents.length - 1) → NearestFirst d0 parents → d0 < parents.length →
    gain3 d1 1 (fun j _ (c : Nat × Nat) => f (c.1, j, c.2)) (Finset.range d0 ×ˢ Finset.Icc 0 (d2 - 1)) ≠ 0 →
    loss3 d1 1 (fun j _ (c : Nat × Nat) => f (c.1, j, c.2)) (Finset.range d0 ×ˢ Finset.Icc 0 (d2 - 1)) ≠ 0 →
    ∀ (fuel fuel' : Nat) (r r' : RResult F ℝ (DRow F ℝ)),
    daggregate false fuel randMax id (rArray d0 d1 d2 f) h t = .ok r →
    daggregate false fuel' randMax id (rArray d0 d1 d2 f) h t' = .ok r' →
    r.auc ≤ r'.auc ∧ r'.auc ≤ r.auc + (FloatP.toK t + u) / 2 + 2 * e := by
  intro parents tree near hlt _ _ fuel fuel' r r' hr hr'
  obtain ⟨ops, uo, key⟩ := dSetup (F := F) d0 d1 d2 f h h0 h1 h2 h2' hb tree near hlt hpos
  rw [key] at hr hr'
  exact sheets_aux fl he uo ht htt hr hr'

/-! ## Concrete cases -/

/-- The table of `C16` on `[1/4, 1]`: the thresholds 3/4 and 1/100 give -23 and -18 (`C66.exRuns`); the bound is `3/4 * 14^2 / 8 = 18.375`. -/
example (st st' : PState ℚ ℚ (OPartition ℚ ℚ) (ℚ × Int × Int × ℚ × ℚ))
    (h : computeBestPartitions (oOps C16.exQ) false 10 (3 / 4 : ℚ) (1 / 4) 1 PState.empty = .ok st)
    (h' : computeBestPartitions (oOps C16.exQ) false 10 (1 / 100 : ℚ) (1 / 4) 1 PState.empty = .ok st')
    (X Y : OPartition ℚ ℚ) (hX : oBestPartition C16.exQ (1 / 4 : ℚ) = .ok X) (hY : oBestPartition C16.exQ (1 : ℚ) = .ok Y)
    (a a' : ℚ) (ha : computeAUC id st = .ok a) (ha' : computeAUC id st' = .ok a') :
    a ≤ a' ∧ a' ≤ a + 3 / 4 * ((Y.quality.gain + Y.quality.loss) - (X.quality.gain + X.quality.loss)) ^ 2 / 8 :=
  exact (oOps C16.exQ) (.ordered _ 3 _ C16.exRep) _ _ _ _ st st'
    ⟨by norm_num, by norm_num, by norm_num, by norm_num, ⟨_, _, h⟩, ⟨_, _, h'⟩⟩ (by norm_num) X Y hX hY a a' ha ha'

/-- The factor 1/8 is nearly attained: the thresholds 1 and 1/1000 give values that differ by 4949.5, and the bound is `201^2 / 8 = 5050.125`. -/
example : (computeBestPartitions (oOps ⟨3, [⟨0, 0⟩, ⟨0, 0⟩, ⟨0, 0⟩, ⟨100, 1⟩, ⟨0, 0⟩, ⟨101, 100⟩]⟩) false 12 (1 : ℚ) 0 1
      PState.empty >>= computeAUC id) = .ok (-5049) ∧
    (computeBestPartitions (oOps ⟨3, [⟨0, 0⟩, ⟨0, 0⟩, ⟨0, 0⟩, ⟨100, 1⟩, ⟨0, 0⟩, ⟨101, 100⟩]⟩) false 12 (1 / 1000 : ℚ) 0 1
      PState.empty >>= computeAUC id) = .ok (-199 / 2) := by
  constructor <;> decide +kernel

/-- Data 1, 0, 2 with IEEE binary32 parameters: the thresholds 1/1024 and 1/4 give an `AUC` that differs by at most 1/8 and a little. -/
example (R : Rounding) (t t' : OverReal (B32 R)) (ht : t.1 = 1 / 4) (ht' : t'.1 = 1 / 1024) : ∃ fuel r r',
    oaggregate (F := OverReal (B32 R)) false fuel 2147483647 id
      (rArray 1 1 3 (fun x => if x.2.2 = 2 then (2 : ℝ) else if x.2.2 = 1 then 0 else 1)) t = .ok r ∧
    oaggregate (F := OverReal (B32 R)) false fuel 2147483647 id
      (rArray 1 1 3 (fun x => if x.2.2 = 2 then (2 : ℝ) else if x.2.2 = 1 then 0 else 1)) t' = .ok r' ∧
    r.auc ≤ r'.auc ∧ r'.auc ≤ r.auc + 13 / 100 := by
  have e1 : (FloatP.toK t : ℝ) = 1 / 4 := by
    show ((t.1 : ℚ) : ℝ) = 1 / 4
    rw [ht]; norm_num
  have e2 : (FloatP.toK t' : ℝ) = 1 / 1024 := by
    show ((t'.1 : ℚ) : ℝ) = 1 / 1024
    rw [ht']; norm_num
  have hp : ∀ i j k : Nat, 0 ≤ (fun x : Nat × Nat × Nat => if x.2.2 = 2 then (2 : ℝ) else if x.2.2 = 1 then 0 else 1) (i, j, k) := by
    intro i j k; dsimp only; split_ifs <;> norm_num
  obtain ⟨N, h⟩ := C49.ordered (overRealLaws (b32Laws R)) 2147483647 (by norm_num) t (by rw [e1]; norm_num) (by rw [e1]; norm_num)
  obtain ⟨N', h'⟩ := C49.ordered (overRealLaws (b32Laws R)) 2147483647 (by norm_num) t' (by rw [e2]; norm_num) (by rw [e2]; norm_num)
  obtain ⟨n1, n2⟩ := C49.nz_aux (f := fun k => if k = 2 then (2 : ℝ) else if k = 1 then 0 else 1) (s := Finset.Icc 0 2)
    (fun x _ => hp 0 0 x) (a := 0) (b := 2) (c := 0) (d := 1) (by simp) (by simp) (by norm_num) (by norm_num) (by norm_num)
    (by simp) (by simp) (by norm_num)
  obtain ⟨r, e, _⟩ := h 1 1 3 (fun x => if x.2.2 = 2 then (2 : ℝ) else if x.2.2 = 1 then 0 else 1) (by norm_num) (by norm_num)
    (by norm_num) (by norm_num) (by norm_num) (fun i j k _ _ _ => hp i j k) n1 n2 (max N N') (le_max_left _ _)
  obtain ⟨r', e', _⟩ := h' 1 1 3 (fun x => if x.2.2 = 2 then (2 : ℝ) else if x.2.2 = 1 then 0 else 1) (by norm_num) (by norm_num)
    (by norm_num) (by norm_num) (by norm_num) (fun i j k _ _ _ => hp i j k) n1 n2 (max N N') (le_max_right _ _)
  refine ⟨_, r, r', e, e', ?_⟩
  have := ordered (overRealLaws (b32Laws R)) (C89.binary32 R) 2147483647 t t' (by rw [e1]; norm_num) (by rw [e1, e2]; norm_num) 1 1 3
    (fun x => if x.2.2 = 2 then (2 : ℝ) else if x.2.2 = 1 then 0 else 1)
    (by norm_num) (by norm_num) (by norm_num) (by norm_num) (by norm_num) (fun i j k _ _ _ => hp i j k) n1 n2 _ _ r r' e e'
  refine ⟨this.1, le_trans this.2 ?_⟩
  rw [e1]
  push_cast
  norm_num
  linarith

end Lp.C90
