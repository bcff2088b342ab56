import Verif.Spec.SameArray
import Verif.Proofs.RSetup
import Verif.Proofs.Scale
import Verif.Props.C60
import Verif.Props.C61
import Verif.Props.C47

/-!
# What the functions called from R depend on: only the relative qualities of the parts
-/

namespace Lp
open Spec
open scoped BigOperators
variable {ι : Type}

/-- `oaggregate` as a search on the table of the relative qualities. -/
theorem oTable (d0 d1 d2 : Nat) (f : Nat × Nat × Nat → ℝ) (h0 : 0 < d0) (h1 : 0 < d1) (h2 : 0 < d2) (h2' : d2 ≤ 65535)
    (hF : d0 * d1 < 2 ^ 32) (hpos : ∀ i j k, i < d0 → j < d1 → k < d2 → 0 ≤ f (i, j, k)) :
    ∃ q : UTM (Quality ℝ), q.Rep d2 (fun i j =>
        relative (gain3 d0 d1 (fun i j k => f (i, j, k))) (loss3 d0 d1 (fun i j k => f (i, j, k))) (Finset.Icc 0 (d2 - 1))
          (fun I : Nat × Nat => Finset.Icc I.1 I.2) (i, j)) ∧
      ∀ (F : Type) [FloatP F ℝ] strict fuel randMax rnd (t : F), oaggregate strict fuel randMax rnd (rArray d0 d1 d2 f) t =
        rSearch (oOps q) (fun (p, s, e, g, l) => (⟨p, s + 1, e + 1, g, l⟩ : ORow F ℝ)) strict fuel randMax rnd t := by
  have hv : OData (OValuesN3.ofVec (table3 d0 d1 d2 f)).toOValues (d0 * d1) d2 (fun k o => f (k / d1, k % d1, o)) :=
    C05.containers.2.2.1 _ _ _ _ _ (OValuesN3.ofVec_holds h0 h1 hF f)
  have hp : ∀ k i, k < d0 * d1 → i < d2 → 0 ≤ f (k / d1, k % d1, i) :=
    fun k i hk hi => hpos _ _ _ (C49.divMod_aux hk).1 (C49.divMod_aux hk).2 hi
  obtain ⟨q, e, hq⟩ := oq_object hv h2' hp
  obtain ⟨q', e', hq'⟩ := oqNormalize_spec hq h2
  refine ⟨q', hq'.congr (fun i j _ _ => ?_), ?_⟩
  · rw [C49.rel_aux d0 d1 (fun i j k => f (i, j, k)) _ (fun I : Nat × Nat => Finset.Icc I.1 I.2)]
    rfl
  · intro F _ strict fuel randMax rnd t
    unfold oaggregate
    rw [convertToMicroModel_rArray]
    simp only [okBind]
    rw [e]
    simp only [okBind]
    rw [oNormalize_object hv.osize h2 e']
    rfl

/-- `haggregate` as a search on the table of the relative qualities; the metadata are those of the hierarchy. -/
theorem hTable' (d0 d1 d2 : Nat) (f : Nat × Nat × Nat → ℝ) (h : List Int) (h0 : 0 < d0) (h1 : 0 < d1) (hF : d1 * d2 < 2 ^ 32)
    (tree : IsTree d0 (h.map (· - 1)) ((h.map (· - 1)).length - 1)) (near : NearestFirst d0 (h.map (· - 1)))
    (hlt : d0 < (h.map (· - 1)).length) (hpos : ∀ i j k, i < d0 → j < d1 → k < d2 → 0 ≤ f (i, j, k)) :
    ∃ (md : HMeta) (q : List (Quality ℝ)), mkMeta d0 (h.map (· - 1)) = .ok md ∧ RightMeta d0 (h.map (· - 1)) md ∧
      VRep q (h.map (· - 1)).length
        (relative (gain3 d1 d2 (fun j k l => f (l, j, k))) (loss3 d1 d2 (fun j k l => f (l, j, k))) (Finset.range d0)
          (leavesUnder d0 (h.map (· - 1)))) ∧
      ∀ (F : Type) [FloatP F ℝ] strict fuel randMax rnd (t : F), haggregate strict fuel randMax rnd (rArray d0 d1 d2 f) h t =
        rSearch (hOps q md) (fun (p, n, s, g, l) => (⟨p, (n : Int) + 1, s, g, l⟩ : HRow F ℝ)) strict fuel randMax rnd t := by
  generalize hpa : h.map (· - 1) = parents at *
  obtain ⟨md, m1, m2, m3⟩ := C03.right d0 parents _ tree near
  have hc : ∃ c, HValuesN3.ofVec (table3 d0 d1 d2 f) parents = .ok c := by
    unfold HValuesN3.ofVec
    rw [SIZE1_table3, m1]
    exact ⟨_, rfl⟩
  obtain ⟨c, hc⟩ := hc
  obtain ⟨md', m1', hold⟩ := HValuesN3.ofVec_holds h0 h1 hF f hc
  obtain rfl : md = md' := Except.ok.inj (m1.symm.trans m1')
  have hcm : c.toHValues.md = md := by
    show c.md = md
    rw [hold.md]
  have hmd : RightMeta d0 parents c.toHValues.md := by rw [hcm]; exact m3
  have hroot : c.toHValues.md.root = parents.length - 1 := by rw [hcm]; exact m2
  have hv : HData c.toHValues (d1 * d2) d0 (fun k l => f (l, k / d2, k % d2)) := C06.containers.2.2.1 _ _ _ _ _ _ hold
  have hp : ∀ k l, k < d1 * d2 → l < d0 → 0 ≤ f (l, k / d2, k % d2) :=
    fun k i hk hi => hpos _ _ _ hi (C49.divMod_aux hk).1 (C49.divMod_aux hk).2
  obtain ⟨q, e, hq⟩ := hq_object hmd hlt hv hp
  obtain ⟨q', e', hq'⟩ := hqNormalize_spec hq hmd.tree.rootLt
  refine ⟨c.toHValues.md, q', by rw [hcm]; exact m1, hmd, hq'.congr (fun x hx => ?_), ?_⟩
  · unfold nDiv
    rw [if_neg (by omega), leavesUnder_root hmd.tree, C49.rel_aux d1 d2 (fun j k l => f (l, j, k)) _ (leavesUnder d0 parents)]
    rfl
  · intro F _ strict fuel randMax rnd t
    unfold haggregate haggregateIn
    rw [convertToMicroModel_rArray, convertToHierarchy_map, hpa]
    simp only [okBind]
    rw [hc]
    simp only [okBind]
    rw [e]
    simp only [okBind]
    rw [hNormalize_object e']
    rfl

/-- `daggregate` as a search on the tables of the relative qualities; the metadata are those of the hierarchy. -/
theorem dTable (d0 d1 d2 : Nat) (f : Nat × Nat × Nat → ℝ) (h : List Int) (h0 : 0 < d0) (h1 : 0 < d1) (h2 : 0 < d2)
    (h2' : d2 ≤ 65535) (hb : d0 * d2 < 2147483648)
    (tree : IsTree d0 (h.map (· - 1)) ((h.map (· - 1)).length - 1)) (near : NearestFirst d0 (h.map (· - 1)))
    (hlt : d0 < (h.map (· - 1)).length) (hpos : ∀ i j k, i < d0 → j < d1 → k < d2 → 0 ≤ f (i, j, k)) :
    ∃ (md : HMeta) (q : List (UTM (Quality ℝ))), mkMeta d0 (h.map (· - 1)) = .ok md ∧ RightMeta d0 (h.map (· - 1)) md ∧
      MRep q (h.map (· - 1)).length d2 (fun x i j =>
        relative (gain3 d1 1 (fun j _ (c : Nat × Nat) => f (c.1, j, c.2))) (loss3 d1 1 (fun j _ (c : Nat × Nat) => f (c.1, j, c.2)))
          (Finset.range d0 ×ˢ Finset.Icc 0 (d2 - 1))
          (fun r : Rect => leavesUnder d0 (h.map (· - 1)) r.node ×ˢ Finset.Icc r.first r.last) ⟨x, i, j⟩) ∧
      ∀ (F : Type) [FloatP F ℝ] strict fuel randMax rnd (t : F), daggregate strict fuel randMax rnd (rArray d0 d1 d2 f) h t =
        rSearch (dOps q md) (fun (p, n, s, a, b, g, l) => (⟨p, (n : Int) + 1, s, (a : Int) + 1, (b : Int) + 1, g, l⟩ : DRow F ℝ))
          strict fuel randMax rnd t := by
  generalize hpa : h.map (· - 1) = parents at *
  obtain ⟨md, m1, m2, m3⟩ := C03.right d0 parents _ tree near
  have hc : ∃ c, DValuesN3.ofVec (table3 d0 d1 d2 f) parents = .ok c := by
    unfold DValuesN3.ofVec
    rw [SIZE1_table3, m1]
    exact ⟨_, rfl⟩
  obtain ⟨c, hc⟩ := hc
  obtain ⟨md', m1', hold⟩ := DValuesN3.ofVec_holds h0 h1 f hc
  obtain rfl : md = md' := Except.ok.inj (m1.symm.trans m1')
  have hcm : c.toDValues.md = md := by
    show c.md = md
    rw [hold.md]
  have hmd : RightMeta d0 parents c.toDValues.md := by rw [hcm]; exact m3
  have hroot : c.toDValues.md.root = parents.length - 1 := by rw [hcm]; exact m2
  have hv : DData c.toDValues d1 d0 d2 (fun k x => f (x.1, k, x.2)) := C07.containers.2.1 _ _ _ _ _ _ hold
  have hp : ∀ k l x, k < d1 → l < d0 → x < d2 → 0 ≤ f (l, k, x) := fun k l x hk hl hx => hpos _ _ _ hl hk hx
  obtain ⟨q, e, hq⟩ := dq_object hmd hlt h2' hb hv hp
  obtain ⟨q', e', hq'⟩ := dqNormalize_spec hq hmd.tree.rootLt hmd.hsize h2 h2'
  have hall : dCells d0 parents ⟨c.toDValues.md.root, 0, d2 - 1⟩ = Finset.range d0 ×ˢ Finset.Icc 0 (d2 - 1) := by
    unfold dCells; rw [leavesUnder_root hmd.tree]
  refine ⟨c.toDValues.md, q', by rw [hcm]; exact m1, hmd, hq'.congr (fun x i j hx _ _ => ?_), ?_⟩
  · have := C49.rel_aux d1 1 (fun j _ (c : Nat × Nat) => f (c.1, j, c.2)) (Finset.range d0 ×ˢ Finset.Icc 0 (d2 - 1)) (dCells d0 parents)
    simp only [Nat.mul_one, Nat.div_one] at this
    change _ = relative _ _ _ (dCells d0 parents) _
    rw [this]
    unfold nDiv
    rw [if_neg (by omega), hall]
    rfl
  · intro F _ strict fuel randMax rnd t
    unfold daggregate daggregateIn
    rw [convertToMicroModel_rArray, convertToHierarchy_map, hpa]
    simp only [okBind]
    rw [hc]
    simp only [okBind]
    rw [e]
    simp only [okBind]
    rw [dNormalize_object hv.osize h2 e']
    rfl

/-! ## Sums over series -/

theorem Spec.SameObservations.sum {dom : ι → Prop} {c : ℝ} {r a b : Nat} {V : Nat → Nat → ι → ℝ} {a' b' : Nat} {V' : Nat → Nat → ι → ℝ}
    {τ : Nat × Nat → Option (Nat × Nat)} (h : SameObservations dom c r a b V a' b' V' τ) (w : (ι → ℝ) → ℝ) {s : Finset ι}
    (hs : ∀ x ∈ s, dom x) (hw : ∀ f g : ι → ℝ, (∀ x ∈ s, f x = g x) → w f = w g) (hz : w (fun _ => 0) = 0)
    (hc : ∀ f : ι → ℝ, w (fun x => c * f x) = c * w f) :
    ∑ i ∈ Finset.range a', ∑ j ∈ Finset.range b', w (V' i j) =
      (r * c) * ∑ i ∈ Finset.range a, ∑ j ∈ Finset.range b, w (V i j) := by
  rw [← Finset.sum_product', ← Finset.sum_product']
  have e : ∀ x ∈ Finset.range a' ×ˢ Finset.range b', w (V' x.1 x.2) =
      ∑ y ∈ Finset.range a ×ˢ Finset.range b, if τ x = some y then c * w (V y.1 y.2) else 0 := by
    rintro ⟨i', j'⟩ hx
    simp only [Finset.mem_product, Finset.mem_range] at hx
    cases ht : τ (i', j') with
    | none =>
      rw [hw _ (fun _ => 0) (fun x hx' => h.zero i' j' hx.1 hx.2 ht x (hs x hx')), hz]
      simp
    | some y =>
      obtain ⟨i, j⟩ := y
      obtain ⟨h1, h2, h3⟩ := h.from' i' j' hx.1 hx.2 i j ht
      rw [hw _ (fun x => c * V i j x) (fun x hx' => h3 x (hs x hx')), hc]
      simp only [Option.some.injEq]
      rw [Finset.sum_ite_eq]
      rw [if_pos (by simp [h1, h2])]
  rw [Finset.sum_congr rfl e, Finset.sum_comm, Finset.mul_sum]
  refine Finset.sum_congr rfl (fun y hy => ?_)
  simp only [Finset.mem_product, Finset.mem_range] at hy
  rw [← Finset.sum_filter, Finset.sum_const, h.times y.1 y.2 hy.1 hy.2, nsmul_eq_mul]
  ring

theorem gainOver_congr' {s : Finset ι} {f g : ι → ℝ} (h : ∀ x ∈ s, f x = g x) : gainOver s f = gainOver s g := by
  unfold gainOver
  rw [Finset.sum_congr rfl h, Finset.sum_congr rfl (fun x hx => congrArg xlog2 (h x hx))]

theorem lossOver_congr' {s : Finset ι} {f g : ι → ℝ} (h : ∀ x ∈ s, f x = g x) : lossOver s f = lossOver s g := by
  unfold lossOver
  rw [Finset.sum_congr rfl h, gainOver_congr' h]

theorem gainOver_zero' (s : Finset ι) : gainOver s (fun _ => 0) = 0 := by unfold gainOver xlog2; simp
theorem lossOver_zero' (s : Finset ι) : lossOver s (fun _ => 0) = 0 := by unfold lossOver; rw [gainOver_zero']; simp

/-- The same observations have the same relative qualities. -/
theorem Spec.SameObservations.relative {A : Type} {dom : ι → Prop} {c : ℝ} (hc : 0 < c) {r a b : Nat} (hr : 0 < r)
    {V : Nat → Nat → ι → ℝ} {a' b' : Nat} {V' : Nat → Nat → ι → ℝ}
    {τ : Nat × Nat → Option (Nat × Nat)} (h : SameObservations dom c r a b V a' b' V' τ) {all : Finset ι} {cells : A → Finset ι}
    (hall : ∀ x ∈ all, dom x) {y : A} (hy : ∀ x ∈ cells y, dom x) :
    relative (gain3 a' b' V') (loss3 a' b' V') all cells y = relative (gain3 a b V) (loss3 a b V) all cells y := by
  have hg : ∀ s : Finset ι, (∀ x ∈ s, dom x) → gain3 a' b' V' s = (r * c) * gain3 a b V s := fun s hs =>
    h.sum (gainOver s) hs (fun _ _ => gainOver_congr') (gainOver_zero' s) (gainOver_mul hc s)
  have hl : ∀ s : Finset ι, (∀ x ∈ s, dom x) → loss3 a' b' V' s = (r * c) * loss3 a b V s := fun s hs =>
    h.sum (lossOver s) hs (fun _ _ => lossOver_congr') (lossOver_zero' s) (lossOver_mul hc s)
  have h0 : (r * c : ℝ) ≠ 0 := (mul_pos (by exact_mod_cast hr) hc).ne'
  unfold Spec.relative
  rw [hg _ hall, hl _ hall, hg _ hy, hl _ hy, mul_div_mul_left _ _ h0, mul_div_mul_left _ _ h0]

/-- Moving the positions and their values does not change gain and loss. -/
theorem gain3_image {ι κ : Type} [DecidableEq κ] {a b : Nat} {V : Nat → Nat → ι → ℝ} {V' : Nat → Nat → κ → ℝ} {s : Finset ι} {g : ι → κ}
    (hg : Set.InjOn g (s : Set ι)) (h : ∀ i j x, i < a → j < b → x ∈ s → V' i j (g x) = V i j x) :
    gain3 a b V' (s.image g) = gain3 a b V s ∧ loss3 a b V' (s.image g) = loss3 a b V s := by
  have e : ∀ (f : ι → ℝ) (f' : κ → ℝ), (∀ x ∈ s, f' (g x) = f x) → ∑ x ∈ s.image g, f' x = ∑ x ∈ s, f x := by
    intro f f' hf
    rw [Finset.sum_image hg]
    exact Finset.sum_congr rfl hf
  have hgain : ∀ i j, i < a → j < b → gainOver (s.image g) (V' i j) = gainOver s (V i j) := by
    intro i j hi hj
    unfold gainOver
    rw [e (V i j) (V' i j) (fun x hx => h i j x hi hj hx), e (fun x => xlog2 (V i j x)) (fun x => xlog2 (V' i j x))
      (fun x hx => by rw [h i j x hi hj hx])]
  constructor
  · exact Finset.sum_congr rfl (fun i hi => Finset.sum_congr rfl (fun j hj =>
      hgain i j (Finset.mem_range.mp hi) (Finset.mem_range.mp hj)))
  · refine Finset.sum_congr rfl (fun i hi => Finset.sum_congr rfl (fun j hj => ?_))
    have hi := Finset.mem_range.mp hi
    have hj := Finset.mem_range.mp hj
    unfold lossOver
    rw [hgain i j hi hj, Finset.card_image_of_injOn hg, e (V i j) (V' i j) (fun x hx => h i j x hi hj hx)]

/-! ## What is reported, given what the search finds -/

variable {F : Type} [FloatP F ℝ]

/-- Two searches with the same parameters and qualities report the same summary. -/
theorem rSearch_summary {P P' T T' R R' : Type} {ops : PartOps F ℝ P T} {ops' : PartOps F ℝ P' T'} {row : T → R} {row' : T' → R'}
    {strict : Bool} {fuel : Nat} {randMax : ℝ} {rnd : ℝ → ℝ} {t : F}
    (h : C61.SameCurve (computeBestPartitions ops strict fuel t FloatP.zero (FloatP.oneSub FloatP.zero) PState.empty)
      (computeBestPartitions ops' strict fuel t FloatP.zero (FloatP.oneSub FloatP.zero) PState.empty)) :
    (rSearch ops' row' strict fuel randMax rnd t).map summary = (rSearch ops row strict fuel randMax rnd t).map summary := by
  unfold rSearch
  cases ha : computeBestPartitions ops strict fuel t FloatP.zero (FloatP.oneSub FloatP.zero) PState.empty with
  | error e =>
    rw [(h.1 e).mp ha]
    rfl
  | ok s =>
    cases hb : computeBestPartitions ops' strict fuel t FloatP.zero (FloatP.oneSub FloatP.zero) PState.empty with
    | error e =>
      have := (h.1 e).mpr hb
      rw [ha] at this
      simp at this
    | ok s' =>
      obtain ⟨h1, h2⟩ := h.2 s s' ha hb
      obtain ⟨h3, h4⟩ := C60.strategies s s' h1 h2 randMax rnd 2
      simp only [okBind]
      rw [h3, h4]
      cases getP randMax 2 s with
      | error e => rfl
      | ok p =>
        simp only [okBind]
        cases computeAUC rnd s with
        | error e => rfl
        | ok x =>
          simp only [okBind, pureOk, Except.map, summary]
          rw [h2]

/-- Two searches that agree up to the numbering report the same summary, and the same rows up to order and numbering. -/
theorem rSearch_agree {P P' T T' R R' : Type} {ops : PartOps F ℝ P T} {ops' : PartOps F ℝ P' T'} {row : T → R} {row' : T' → R'}
    {strict : Bool} {fuel : Nat} {randMax : ℝ} {rnd : ℝ → ℝ} {t : F} {same : P → P' → Prop} {g : T → T'} {g' : R → R'}
    (hg : ∀ x, row' (g x) = g' (row x))
    (h : C60.SearchesAgree same g (computeBestPartitions ops strict fuel t FloatP.zero (FloatP.oneSub FloatP.zero) PState.empty)
      (computeBestPartitions ops' strict fuel t FloatP.zero (FloatP.oneSub FloatP.zero) PState.empty)) :
    (rSearch ops' row' strict fuel randMax rnd t).map summary = (rSearch ops row strict fuel randMax rnd t).map summary ∧
    ∀ r r', rSearch ops row strict fuel randMax rnd t = .ok r → rSearch ops' row' strict fuel randMax rnd t = .ok r' →
      r'.partitions.Perm (r.partitions.map g') := by
  constructor
  · exact rSearch_summary ⟨h.1, fun s s' hs hs' => ⟨(h.2 s s' hs hs').1, (h.2 s s' hs hs').2.1⟩⟩
  · intro r r' hr hr'
    obtain ⟨s, a1, _, _, a4, _⟩ := rSearch_ok hr
    obtain ⟨s', b1, _, _, b4, _⟩ := rSearch_ok hr'
    have := (h.2 s s' a1 b1).2.2.2
    rw [a4, b4, List.map_map]
    refine (this.map row').trans (List.Perm.of_eq ?_)
    rw [List.map_map]
    exact List.map_congr_left (fun x _ => hg x)

end Lp
