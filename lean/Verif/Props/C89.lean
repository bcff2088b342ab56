import Verif.Proofs.Missed
import Verif.Proofs.RSetup

/-!
# C89 — the threshold bounds how much value the search can miss
-/

namespace Lp.C89
open Spec
variable {F K P T : Type} [Field K] [LinearOrder K] [IsStrictOrderedRing K] [FloatP F K] {u : K}

/-- The partition that is the best one at the parameter `x` is, at another value `p` of the parameter, worse than any rival by
at most `|p - x|` times the difference of gain + loss, plus the rounding of `1 - x` times the difference of loss. -/
theorem nearby (ops : PartOps F K P T) (x : F) (e : K)
    (he : |(FloatP.toK (FloatP.oneSub x) : K) - (1 - FloatP.toK x)| ≤ e)
    (X : P) (rival : Quality K)
    (hr : FloatP.toK x * rival.gain - FloatP.toK (FloatP.oneSub x) * rival.loss ≤
      FloatP.toK x * (ops.quality X).gain - FloatP.toK (FloatP.oneSub x) * (ops.quality X).loss) (p : K) :
    p * rival.gain - (1 - p) * rival.loss ≤ p * (ops.quality X).gain - (1 - p) * (ops.quality X).loss +
      |p - FloatP.toK x| * |(rival.gain + rival.loss) - ((ops.quality X).gain + (ops.quality X).loss)| +
      e * |rival.loss - (ops.quality X).loss| := by
  have h := regret_at (p := p) he (le_refl |rival.loss - (ops.quality X).loss|) (le_trans (abs_nonneg _) he) hr
  have h2 := le_abs_self ((p - FloatP.toK x) * ((rival.gain + rival.loss) - ((ops.quality X).gain + (ops.quality X).loss)))
  rw [abs_mul] at h2
  linarith

/-- A search with threshold `t ≥ 0` over `[lo, hi]` that returns.  `rival` is the gain and loss of something that is never
better than the best partition, at the parameters of the range; `e` bounds the rounding of `1 - x`, `Λ` the difference
of the loss of the rival and that of a listed partition, `S` the difference of gain + loss between listed partitions.  At every number `p` of the range,
some listed quality has a value that is smaller than that of the rival by at most `(t + u) * S / 4 + e * Λ`. -/
theorem nearlyAll (fl : FloatLaws F K u) (ops : PartOps F K P T) (ho : IsPartitioner ops) (t lo hi : F)
    (h0 : (0 : K) ≤ FloatP.toK lo) (hlt : (FloatP.toK lo : K) < FloatP.toK hi) (h1 : (FloatP.toK hi : K) ≤ 1)
    (ht : (0 : K) ≤ FloatP.toK t) (e Λ S : K)
    (he : ∀ x : F, (0 : K) ≤ FloatP.toK x → (FloatP.toK x : K) ≤ 1 → |(FloatP.toK (FloatP.oneSub x) : K) - (1 - FloatP.toK x)| ≤ e)
    (fuel : Nat) (st st' : PState F K P T) (h : computeBestPartitions ops false fuel t lo hi st = .ok st')
    (rival : Quality K)
    (hr : ∀ x X, (FloatP.toK lo : K) ≤ FloatP.toK x → (FloatP.toK x : K) ≤ FloatP.toK hi → ops.best x = .ok X →
      FloatP.toK x * rival.gain - FloatP.toK (FloatP.oneSub x) * rival.loss ≤
        FloatP.toK x * (ops.quality X).gain - FloatP.toK (FloatP.oneSub x) * (ops.quality X).loss)
    (hΛ : ∀ a ∈ st'.qualityList, |rival.loss - a.2.loss| ≤ Λ)
    (hS : ∀ a ∈ st'.qualityList, ∀ b ∈ st'.qualityList, (b.2.gain + b.2.loss) - (a.2.gain + a.2.loss) ≤ S)
    (p : K) (hl : FloatP.toK lo ≤ p) (hh : p ≤ FloatP.toK hi) :
    ∃ q ∈ st'.qualityList, p * rival.gain - (1 - p) * rival.loss ≤
      p * q.2.gain - (1 - p) * q.2.loss + (FloatP.toK t + u) * S / 4 + e * Λ := by
  obtain ⟨B, so⟩ := isPartitioner_ops ho
  obtain ⟨L, hc, hb, e1, _, e2, e3, _⟩ := search_full fl so h0 hlt h1 h
  have hrange := samples_range (K := K) hlt hb
  have e0 : 0 ≤ e := le_trans (abs_nonneg _) (he lo h0 (le_trans hlt.le h1))
  have listed : ∀ x ∈ lo :: L ++ [hi], ∃ q ∈ st'.qualityList, q.2 = ops.quality (B x) := by
    intro x hx
    obtain ⟨y, hy, hs⟩ := keep_repr (same := fun x y => ops.same (B x) (B y)) so.refl
      (fun x y z => so.trans x y z) _ x hx
    refine ⟨(y, ops.quality (B y)), ?_, (isPartitioner_sameQ ho _ _ _ _ (so.best x) (so.best y) hs).symm⟩
    rw [e3, e1]
    exact List.mem_map.mpr ⟨y, hy, rfl⟩
  have S0 : 0 ≤ S := by
    obtain ⟨q, hq, _⟩ := listed lo (by simp)
    have := hS q hq q hq
    linarith
  have tu : 0 ≤ FloatP.toK t + u := add_nonneg ht fl.err_nonneg
  have big : 0 ≤ (FloatP.toK t + u) * S / 4 := by positivity
  have reg : ∀ x ∈ lo :: L ++ [hi], ∀ q ∈ st'.qualityList, q.2 = ops.quality (B x) →
      p * rival.gain - (1 - p) * rival.loss ≤ p * q.2.gain - (1 - p) * q.2.loss +
        (p - FloatP.toK x) * ((rival.gain + rival.loss) - (q.2.gain + q.2.loss)) + e * Λ := by
    intro x hx q hq eq
    refine regret_at (he x (le_trans h0 (hrange x hx).1) (le_trans (hrange x hx).2 h1)) (hΛ q hq) e0 ?_
    rw [eq]
    exact hr x _ (hrange x hx).1 (hrange x hx).2 (so.best x)
  rcases chain_betweenK (K := K) L lo hi hc hl hh with ⟨x, hx, e⟩ | ⟨x, hx, y, hy, ⟨_, hres⟩, hxp, hpy⟩
  · obtain ⟨q, hq, eq⟩ := listed x hx
    refine ⟨q, hq, ?_⟩
    have := reg x hx q hq eq
    rw [show (FloatP.toK x : K) = p from e, sub_self, zero_mul] at this
    linarith
  · obtain ⟨q, hq, eq⟩ := listed x hx
    obtain ⟨q', hq', eq'⟩ := listed y hy
    have r1 := reg x hx q hq eq
    have r2 := reg y hy q' hq' eq'
    have hxp : FloatP.toK x < p := hxp
    have hpy : p < FloatP.toK y := hpy
    rcases le_total (rival.gain + rival.loss) (q.2.gain + q.2.loss) with hs | hs
    · refine ⟨q, hq, ?_⟩
      have : (p - FloatP.toK x) * ((rival.gain + rival.loss) - (q.2.gain + q.2.loss)) ≤ 0 :=
        mul_nonpos_of_nonneg_of_nonpos (by linarith) (by linarith)
      linarith
    rcases le_total (q'.2.gain + q'.2.loss) (rival.gain + rival.loss) with hs' | hs'
    · refine ⟨q', hq', ?_⟩
      have : (p - FloatP.toK y) * ((rival.gain + rival.loss) - (q'.2.gain + q'.2.loss)) ≤ 0 :=
        mul_nonpos_of_nonpos_of_nonneg (by linarith) (by linarith)
      linarith
    have hyx : FloatP.toK y - FloatP.toK x ≤ FloatP.toK t + u ∨ q'.2.gain + q'.2.loss = q.2.gain + q.2.loss := by
      rcases hres with hres | hres
      · right
        rw [eq, eq', isPartitioner_sameQ ho _ _ _ _ (so.best x) (so.best y) hres]
      · left
        have h2 := fl.sub_err x y (le_trans h0 (hrange x hx).1) (by linarith) (le_trans (hrange y hy).2 h1)
        have h3 : ¬ ((FloatP.toK t : K) < FloatP.toK (FloatP.sub y x)) := by
          rw [← fl.lt_iff, hres]; simp
        have := (abs_le.mp h2).1
        linarith
    have hd := hS q hq q' hq'
    have prod : (FloatP.toK y - FloatP.toK x) * ((q'.2.gain + q'.2.loss) - (q.2.gain + q.2.loss)) ≤ (FloatP.toK t + u) * S := by
      rcases hyx with hyx | hyx
      · exact mul_le_mul hyx hd (by linarith) tu
      · rw [hyx, sub_self, mul_zero]
        exact mul_nonneg tu S0
    rcases min_quarter (a := p - FloatP.toK x) (b := FloatP.toK y - p)
      (c := (rival.gain + rival.loss) - (q.2.gain + q.2.loss)) (d := (q'.2.gain + q'.2.loss) - (rival.gain + rival.loss))
      (by linarith) (by linarith) (by linarith) (by linarith) with m | m
    · refine ⟨q, hq, ?_⟩
      have : (p - FloatP.toK x + (FloatP.toK y - p)) * ((rival.gain + rival.loss) - (q.2.gain + q.2.loss) +
        ((q'.2.gain + q'.2.loss) - (rival.gain + rival.loss))) =
        (FloatP.toK y - FloatP.toK x) * ((q'.2.gain + q'.2.loss) - (q.2.gain + q.2.loss)) := by ring
      rw [this] at m
      linarith
    · refine ⟨q', hq', ?_⟩
      have : (p - FloatP.toK x + (FloatP.toK y - p)) * ((rival.gain + rival.loss) - (q.2.gain + q.2.loss) +
        ((q'.2.gain + q'.2.loss) - (rival.gain + rival.loss))) =
        (FloatP.toK y - FloatP.toK x) * ((q'.2.gain + q'.2.loss) - (q.2.gain + q.2.loss)) := by ring
      rw [this] at m
      have : (p - FloatP.toK y) * ((rival.gain + rival.loss) - (q'.2.gain + q'.2.loss)) =
        (FloatP.toK y - p) * ((q'.2.gain + q'.2.loss) - (rival.gain + rival.loss)) := by ring
      linarith

/-- With exact parameters: whatever partition is best at a parameter `p` of the range, one of the listed ones is at `p` worse by
at most a quarter of the threshold times the difference of gain + loss between the last listed partition and the first one. -/
theorem exact (ops : PartOps K K P T) (ho : IsPartitioner ops) (t lo hi : K) (h0 : 0 ≤ lo) (hlt : lo < hi) (h1 : hi ≤ 1)
    (ht : 0 ≤ t) (fuel : Nat) (st st' : PState K K P T) (h : computeBestPartitions ops false fuel t lo hi st = .ok st')
    (first last : K × Quality K) (hf : st'.qualityList.head? = some first) (hla : st'.qualityList.getLast? = some last)
    (p : K) (hl : lo ≤ p) (hh : p ≤ hi) (X : P) (hX : ops.best p = .ok X) :
    ∃ q ∈ st'.qualityList, p * (ops.quality X).gain - (1 - p) * (ops.quality X).loss ≤
      p * q.2.gain - (1 - p) * q.2.loss + t * ((last.2.gain + last.2.loss) - (first.2.gain + first.2.loss)) / 4 := by
  have inc := C45.increasing (exactLaws K) ops ho t lo hi h0 hlt h1 fuel st st' h
  rw [List.pairwise_map] at inc
  have up : ∀ a ∈ st'.qualityList, first.2.gain + first.2.loss ≤ a.2.gain + a.2.loss ∧
      a.2.gain + a.2.loss ≤ last.2.gain + last.2.loss := by
    intro a ha
    constructor
    · cases hq : st'.qualityList with
      | nil => rw [hq] at ha; simp at ha
      | cons b l =>
        rw [hq] at ha hf inc
        simp only [List.head?_cons, Option.some.injEq] at hf
        subst hf
        rw [List.pairwise_cons] at inc
        rcases List.mem_cons.mp ha with rfl | ha
        · exact le_refl _
        · have := inc.1 a ha
          linarith [this.1, this.2.1]
    · obtain ⟨l, hq⟩ := List.getLast?_eq_some_iff.mp hla
      rw [hq] at ha inc
      rw [List.pairwise_append] at inc
      rcases List.mem_append.mp ha with ha | ha
      · have := inc.2.2 a ha last (by simp)
        linarith [this.1, this.2.1]
      · simp at ha; subst ha; exact le_refl _
  have bound : ∃ Λ, ∀ a ∈ st'.qualityList, |(ops.quality X).loss - a.2.loss| ≤ Λ := by
    refine ⟨(st'.qualityList.map (fun a => |(ops.quality X).loss - a.2.loss|)).sum, fun a ha => ?_⟩
    exact List.single_le_sum (by rintro _ hx; obtain ⟨b, _, rfl⟩ := List.mem_map.mp hx; exact abs_nonneg _) _ (List.mem_map_of_mem (f := fun a => |(ops.quality X).loss - a.2.loss|) ha)
  obtain ⟨Λ, hΛ⟩ := bound
  obtain ⟨q, hq, hv⟩ := nearlyAll (exactLaws K) ops ho t lo hi h0 hlt h1 ht 0 Λ
    ((last.2.gain + last.2.loss) - (first.2.gain + first.2.loss)) (fun x _ _ => by simp) fuel st st' h (ops.quality X)
    (fun x Y _ _ hY => (isPartitioner_curve ho).opt x p Y X hY hX) hΛ
    (fun a ha b hb => by linarith [(up a ha).1, (up b hb).2]) p hl hh
  refine ⟨q, hq, ?_⟩
  simp only [exact_toK, zero_mul, add_zero] at hv
  exact hv

/-! ## The functions called from R -/

/-- The rounding of `1 - x` for `x` in the unit interval is at most `e`. -/
def ComplementErr (F : Type) [FloatP F ℝ] (e : ℝ) : Prop :=
  ∀ x : F, (0 : ℝ) ≤ FloatP.toK x → (FloatP.toK x : ℝ) ≤ 1 → |(FloatP.toK (FloatP.oneSub x) : ℝ) - (1 - FloatP.toK x)| ≤ e

theorem near_aux {F : Type} [FloatP F ℝ] {u e : ℝ} (fl : FloatLaws F ℝ u) (he : ComplementErr F e) {P T A R : Type}
    {ops : PartOps F ℝ P T} {part rival : List A → Prop} {quality : A → Quality ℝ} (uo : UnitOps ops part rival quality)
    {rowFn : T → R} {fuel : Nat} {randMax : ℝ} {t : F} (ht : (0 : ℝ) ≤ FloatP.toK t) {r : RResult F ℝ R}
    (h : rSearch ops rowFn false fuel randMax id t = .ok r) (p : ℝ) (p0 : 0 ≤ p) (p1 : p ≤ 1) (L : List A) (hL : rival L) :
    ∃ q ∈ r.qualities, p * gainOf quality L - (1 - p) * lossOf quality L ≤
      p * q.gain - (1 - p) * q.loss + (FloatP.toK t + u) / 2 + e := by
  have z0 : (FloatP.toK (FloatP.zero : F) : ℝ) = 0 := fl.zero
  have z1 : (FloatP.toK (FloatP.oneSub (FloatP.zero : F)) : ℝ) = 1 := fl.oneSub_zero _ z0
  have hlt : (FloatP.toK (FloatP.zero : F) : ℝ) < FloatP.toK (FloatP.oneSub (FloatP.zero : F)) := by rw [z0, z1]; norm_num
  unfold rSearch at h
  cases hst : computeBestPartitions ops false fuel t FloatP.zero (FloatP.oneSub FloatP.zero) PState.empty with
  | error x => rw [hst] at h; simp at h
  | ok st =>
    rw [hst] at h
    simp only [okBind] at h
    cases h2 : getP randMax 2 st with
    | error x => rw [h2] at h; simp at h
    | ok po =>
      rw [h2] at h
      simp only [okBind] at h
      cases h3 : computeAUC id st with
      | error x => rw [h3] at h; simp at h
      | ok a =>
        rw [h3] at h
        simp only [okBind, pureOk] at h
        obtain rfl := Except.ok.inj h
        have unit : ∀ a ∈ st.qualityList, 0 ≤ a.2.gain ∧ a.2.gain ≤ 1 ∧ 0 ≤ a.2.loss ∧ a.2.loss ≤ 1 := by
          intro a ha
          obtain ⟨_, _, l3, l4, l5, l6, _, _⟩ := C28.list fl ops uo.partitioner t _ _ z0.ge hlt z1.le fuel _ st hst
          rw [l6] at ha
          obtain ⟨b, hb, rfl⟩ := List.mem_map.mp ha
          have hr := l3 b.1 (by rw [← l4]; exact List.mem_map_of_mem hb)
          rw [z0, z1] at hr
          obtain ⟨X, L, x1, x2, x3, _⟩ := uo.best b.1 hr.1 hr.2
          obtain rfl : b.2 = X := Except.ok.inj ((l5 b hb).symm.trans x1)
          dsimp only
          rw [x3]
          exact uo.unit L x2
        have ru := uo.rivalUnit L hL
        obtain ⟨q, hq, hv⟩ := nearlyAll fl ops uo.partitioner t _ _ z0.ge hlt z1.le ht e 1 2 he fuel _ st hst
          ⟨gainOf quality L, lossOf quality L⟩ (by
            intro x X hx0 hx1 hX
            rw [z0] at hx0
            rw [z1] at hx1
            obtain ⟨X', L', x1, x2, x3, x4⟩ := uo.best x hx0 hx1
            obtain rfl : X = X' := Except.ok.inj (hX.symm.trans x1)
            rw [x3]
            exact x4 L hL)
          (by
            intro a ha
            have := unit a ha
            rw [abs_le]
            constructor <;> dsimp only <;> linarith [this.2.2.1, this.2.2.2, ru.2.2.1, ru.2.2.2])
          (by
            intro a ha b hb
            have h1 := unit a ha
            have h2 := unit b hb
            linarith [h1.1, h1.2.2.1, h2.2.1, h2.2.2.2])
          p (by rw [z0]; exact p0) (by rw [z1]; exact p1)
        refine ⟨_, List.mem_map_of_mem hq, ?_⟩
        dsimp only at hv ⊢
        linarith

/-- `oaggregate(micro, th)` that returns, on a non-negative array whose whole has a gain and a loss: at every number `p` between 0 and 1, no tiling of the slices
has a value `p * gain - (1-p) * loss` (relative gain and loss) that exceeds that of all rows of `Qualities` by more than half the threshold, up to rounding
of the parameters. -/
theorem ordered {F : Type} [FloatP F ℝ] {u e : ℝ} (fl : FloatLaws F ℝ u) (he : ComplementErr F e) (randMax : ℝ) (t : F)
    (ht : (0 : ℝ) ≤ FloatP.toK t) (d0 d1 d2 : Nat) (f : Nat × Nat × Nat → ℝ) (h0 : 0 < d0) (h1 : 0 < d1) (h2 : 0 < d2)
    (h2' : d2 ≤ 65535) (hF : d0 * d1 < 2 ^ 32) (hpos : ∀ i j k, i < d0 → j < d1 → k < d2 → 0 ≤ f (i, j, k)) :
    let gain := gain3 d0 d1 (fun i j k => f (i, j, k))
    let loss := loss3 d0 d1 (fun i j k => f (i, j, k))
    let all := Finset.Icc 0 (d2 - 1)
    gain all ≠ 0 → loss all ≠ 0 →
    let quality := relative gain loss all (fun I : Nat × Nat => Finset.Icc I.1 I.2)
    ∀ fuel r, oaggregate false fuel randMax id (rArray d0 d1 d2 f) t = .ok r →
    ∀ p, 0 ≤ p → p ≤ 1 → ∀ L, Tiles 0 d2 L → ∃ q ∈ r.qualities, p * gainOf quality L - (1 - p) * lossOf quality L ≤
      p * q.gain - (1 - p) * q.loss + (FloatP.toK t + u) / 2 + e := by
  intro gain loss all _ _ quality fuel r hr p p0 p1 L hL
  obtain ⟨ops, uo, key⟩ := oSetup (F := F) d0 d1 d2 f h0 h1 h2 h2' hF hpos
  rw [key] at hr
  exact near_aux fl he uo ht hr p p0 p1 L hL

/-- `haggregate(micro, h, th)`: the same, for the sets of nodes such that every leaf is below exactly one of them. -/
theorem hierarchical {F : Type} [FloatP F ℝ] {u e : ℝ} (fl : FloatLaws F ℝ u) (he : ComplementErr F e) (randMax : ℝ) (t : F)
    (ht : (0 : ℝ) ≤ FloatP.toK t) (d0 d1 d2 : Nat) (f : Nat × Nat × Nat → ℝ) (h : List Int) (h0 : 0 < d0) (h1 : 0 < d1)
    (hF : d1 * d2 < 2 ^ 32) (hpos : ∀ i j k, i < d0 → j < d1 → k < d2 → 0 ≤ f (i, j, k)) :
    let parents := h.map (· - 1)
    IsTree d0 parents (parents.length - 1) → NearestFirst d0 parents → d0 < parents.length →
    let gain := gain3 d1 d2 (fun j k l => f (l, j, k))
    let loss := loss3 d1 d2 (fun j k l => f (l, j, k))
    let all := Finset.range d0
    gain all ≠ 0 → loss all ≠ 0 →
    let quality := relative gain loss all (leavesUnder d0 parents)
    ∀ fuel r, haggregate false fuel randMax id (rArray d0 d1 d2 f) h t = .ok r →
    ∀ p, 0 ≤ p → p ≤ 1 → ∀ L, LeafCover d0 parents L → ∃ q ∈ r.qualities, p * gainOf quality L - (1 - p) * lossOf quality L ≤
      p * q.gain - (1 - p) * q.loss + (FloatP.toK t + u) / 2 + e := by
  intro parents tree near hlt gain loss all _ _ quality fuel r hr p p0 p1 L hL
  obtain ⟨ops, uo, key⟩ := hSetup (F := F) d0 d1 d2 f h h0 h1 hF tree near hlt hpos
  rw [key] at hr
  exact near_aux fl he uo ht hr p p0 p1 L hL

/-- `daggregate(micro, h, th)`: the same, for the coarse-first partitions of the cells (see C21) into rectangles of nodes and
slices. -/
theorem spatiotemporal {F : Type} [FloatP F ℝ] {u e : ℝ} (fl : FloatLaws F ℝ u) (he : ComplementErr F e) (randMax : ℝ) (t : F)
    (ht : (0 : ℝ) ≤ FloatP.toK t) (d0 d1 d2 : Nat) (f : Nat × Nat × Nat → ℝ) (h : List Int) (h0 : 0 < d0) (h1 : 0 < d1)
    (h2 : 0 < d2) (h2' : d2 ≤ 65535) (hb : d0 * d2 < 2147483648)
    (hpos : ∀ i j k, i < d0 → j < d1 → k < d2 → 0 ≤ f (i, j, k)) :
    let parents := h.map (· - 1)
    IsTree d0 parents (parents.length - 1) → NearestFirst d0 parents → d0 < parents.length →
    let gain := gain3 d1 1 (fun j _ (c : Nat × Nat) => f (c.1, j, c.2))
    let loss := loss3 d1 1 (fun j _ (c : Nat × Nat) => f (c.1, j, c.2))
    let all := Finset.range d0 ×ˢ Finset.Icc 0 (d2 - 1)
    gain all ≠ 0 → loss all ≠ 0 →
    let quality := relative gain loss all (fun r : Rect => leavesUnder d0 parents r.node ×ˢ Finset.Icc r.first r.last)
    ∀ fuel r, daggregate false fuel randMax id (rArray d0 d1 d2 f) h t = .ok r →
    ∀ p, 0 ≤ p → p ≤ 1 → ∀ L, CellCover d0 parents d2 L → CoarseFirst parents L →
    ∃ q ∈ r.qualities, p * gainOf quality L - (1 - p) * lossOf quality L ≤
      p * q.gain - (1 - p) * q.loss + (FloatP.toK t + u) / 2 + e := by
  intro parents tree near hlt gain loss all _ _ quality fuel r hr p p0 p1 L hL hL'
  obtain ⟨ops, uo, key⟩ := dSetup (F := F) d0 d1 d2 f h h0 h1 h2 h2' hb tree near hlt hpos
  rw [key] at hr
  exact near_aux fl he uo ht hr p p0 p1 L ⟨hL, hL'⟩

/-- IEEE binary32: `1 - x` is rounded by at most `2^-24`, in every rounding mode. -/
theorem binary32 (R : Rounding) : ComplementErr (OverReal (B32 R)) (1 / 2 ^ 24) := by
  intro x h0 h1
  have h0 : (0 : ℝ) ≤ ((x.1 : ℚ) : ℝ) := h0
  have h1 : ((x.1 : ℚ) : ℝ) ≤ 1 := h1
  have a0 : 0 ≤ x.1 := by exact_mod_cast h0
  have a1 : x.1 ≤ 1 := by exact_mod_cast h1
  have := rnd_err24 R (x := 1 - x.1) (by linarith) (by linarith)
  show |((R.rnd (1 - x.1) : ℚ) : ℝ) - (1 - ((x.1 : ℚ) : ℝ))| ≤ 1 / 2 ^ 24
  have h2 : ((|R.rnd (1 - x.1) - (1 - x.1)| : ℚ) : ℝ) ≤ ((1 / 2 ^ 24 : ℚ) : ℝ) := Rat.cast_le.mpr this
  push_cast at h2
  exact h2

/-- Exact parameters: `1 - x` is not rounded. -/
theorem unrounded : ComplementErr ℝ 0 := by
  intro x _ _
  simp

/-! ## Concrete cases -/

/-- The table of `C16` has three best partitions.  With the threshold 1 the middle one, with gain 2 and loss 1, is missed; at
`p = 1/2` its value is `1/2` and that of the listed ones 0 and -1, within `1 * 14 / 4`. -/
example : (computeBestPartitions (oOps C16.exQ) false 10 (1 : ℚ) 0 1 PState.empty).map
    (fun st => st.qualityList.map (fun e => (e.2.gain, e.2.loss))) = .ok [(0, 0), (6, 8)] := by decide +kernel

example (st' : PState ℚ ℚ (OPartition ℚ ℚ) (ℚ × Int × Int × ℚ × ℚ))
    (h : computeBestPartitions (oOps C16.exQ) false 10 (1 : ℚ) 0 1 PState.empty = .ok st')
    (first last : ℚ × Quality ℚ) (hf : st'.qualityList.head? = some first) (hla : st'.qualityList.getLast? = some last)
    (X : OPartition ℚ ℚ) (hX : oBestPartition C16.exQ (1 / 2 : ℚ) = .ok X) :
    ∃ q ∈ st'.qualityList, 1 / 2 * X.quality.gain - (1 - 1 / 2) * X.quality.loss ≤
      1 / 2 * q.2.gain - (1 - 1 / 2) * q.2.loss + 1 * ((last.2.gain + last.2.loss) - (first.2.gain + first.2.loss)) / 4 :=
  exact (oOps C16.exQ) (.ordered _ 3 _ C16.exRep) 1 0 1 (le_refl _) (by norm_num) (le_refl _) (by norm_num) 10 _ st' h first last hf hla
    (1 / 2) (by norm_num) (by norm_num) X hX

/-- The factor 1/4 cannot be made much smaller: here the threshold is 1, gain + loss differ by 201, so that the bound is 50.25, and at
`p = 1/2` the partition that is missed has value 49.5 whereas those of the listed ones are 0 and 1/2. -/
example : (computeBestPartitions (oOps ⟨3, [⟨0, 0⟩, ⟨0, 0⟩, ⟨0, 0⟩, ⟨100, 1⟩, ⟨0, 0⟩, ⟨101, 100⟩]⟩) false 10 (1 : ℚ) 0 1
      PState.empty).map (fun st => st.qualityList.map (fun e => (e.2.gain, e.2.loss))) = .ok [(0, 0), (101, 100)] ∧
    (oBestPartition ⟨3, [⟨0, 0⟩, ⟨0, 0⟩, ⟨0, 0⟩, ⟨100, 1⟩, ⟨0, 0⟩, ⟨101, 100⟩]⟩ (1 / 2 : ℚ)).map (fun P => P.quality) =
      .ok ⟨100, 1⟩ := by
  constructor <;> decide +kernel

/-- The data 1, 0, 2 with IEEE binary32 parameters, any rounding mode and the threshold 1/1024: the call returns, and no tiling of the
three slices is better than all the rows by more than 1/2000. -/
example (R : Rounding) (t : OverReal (B32 R)) (ht : t.1 = 1 / 1024) : ∃ fuel r,
    oaggregate (F := OverReal (B32 R)) false fuel 2147483647 id
      (rArray 1 1 3 (fun x => if x.2.2 = 2 then (2 : ℝ) else if x.2.2 = 1 then 0 else 1)) t = .ok r ∧
    ∀ p : ℝ, 0 ≤ p → p ≤ 1 → ∀ L, Tiles 0 3 L →
      let quality := relative (gain3 1 1 (fun _ _ k => if k = 2 then (2 : ℝ) else if k = 1 then 0 else 1))
        (loss3 1 1 (fun _ _ k => if k = 2 then (2 : ℝ) else if k = 1 then 0 else 1)) (Finset.Icc 0 2)
        (fun I : Nat × Nat => Finset.Icc I.1 I.2)
      ∃ q ∈ r.qualities, p * gainOf quality L - (1 - p) * lossOf quality L ≤ p * q.gain - (1 - p) * q.loss + 1 / 2000 := by
  have t0 : (0 : ℝ) < ((t.1 : ℚ) : ℝ) := by rw [ht]; norm_num
  have hp : ∀ i j k : Nat, 0 ≤ (fun x : Nat × Nat × Nat => if x.2.2 = 2 then (2 : ℝ) else if x.2.2 = 1 then 0 else 1) (i, j, k) := by
    intro i j k; dsimp only; split_ifs <;> norm_num
  obtain ⟨N, h⟩ := C49.ordered (overRealLaws (b32Laws R)) 2147483647 (by norm_num) t t0
    (by show 11 * (((1 / 2 ^ 23 : ℚ)) : ℝ) ≤ ((t.1 : ℚ) : ℝ); rw [ht]; norm_num)
  obtain ⟨n1, n2⟩ := C49.nz_aux (f := fun k => if k = 2 then (2 : ℝ) else if k = 1 then 0 else 1) (s := Finset.Icc 0 2)
    (fun x _ => hp 0 0 x) (a := 0) (b := 2) (c := 0) (d := 1) (by simp) (by simp) (by norm_num) (by norm_num) (by norm_num)
    (by simp) (by simp) (by norm_num)
  obtain ⟨r, e, hr⟩ := h 1 1 3 (fun x => if x.2.2 = 2 then (2 : ℝ) else if x.2.2 = 1 then 0 else 1) (by norm_num) (by norm_num)
    (by norm_num) (by norm_num) (by norm_num) (fun i j k _ _ _ => hp i j k) n1 n2 N (Nat.le_refl _)
  refine ⟨N, r, e, ?_⟩
  intro p p0 p1 L hL quality
  obtain ⟨q, hq, hv⟩ := ordered (overRealLaws (b32Laws R)) (binary32 R) 2147483647 t t0.le 1 1 3
    (fun x => if x.2.2 = 2 then (2 : ℝ) else if x.2.2 = 1 then 0 else 1) (by norm_num) (by norm_num) (by norm_num) (by norm_num)
    (by norm_num) (fun i j k _ _ _ => hp i j k) n1 n2 N r e p p0 p1 L hL
  refine ⟨q, hq, le_trans hv ?_⟩
  have e1 : (FloatP.toK t : ℝ) = 1 / 1024 := by
    show ((t.1 : ℚ) : ℝ) = 1 / 1024
    rw [ht]; norm_num
  rw [e1]
  push_cast
  norm_num
  linarith

end Lp.C89
