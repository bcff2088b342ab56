import Verif.Proofs.RInvariant

/-!
# C94 — What the results in R do not depend on

The unit of the data, the order of the series, repetitions of all of them and empty series change nothing in the results of
`oaggregate`, `haggregate` and `daggregate`; the numbering of the hierarchy changes only the numbers of the nodes and the order of
the rows; reversing time changes nothing in the table of qualities, the optimal parameter and the area of `oaggregate`, and
neither does asking `daggregate` about a single space.

Exact arithmetic; data whose whole has a gain and a loss (for all other data the results are undefined, see C59).
-/

namespace Lp.C94
open Spec
variable {F : Type} [FloatP F ℝ]

/-- `oaggregate`: the series are those of each space and type; each has a value for every slice. -/
theorem ordered (d0 d1 d0' d1' d2 : Nat) (f f' : Nat × Nat × Nat → ℝ) (h0 : 0 < d0) (h1 : 0 < d1) (h0' : 0 < d0') (h1' : 0 < d1')
    (h2 : 0 < d2) (h2' : d2 ≤ 65535) (hF : d0 * d1 < 2 ^ 32) (hF' : d0' * d1' < 2 ^ 32)
    (hpos : ∀ i j k, i < d0 → j < d1 → k < d2 → 0 ≤ f (i, j, k))
    (_hg : gain3 d0 d1 (fun i j k => f (i, j, k)) (Finset.Icc 0 (d2 - 1)) ≠ 0)
    (_hl : loss3 d0 d1 (fun i j k => f (i, j, k)) (Finset.Icc 0 (d2 - 1)) ≠ 0)
    (c : ℝ) (hc : 0 < c) (r : Nat) (hr : 0 < r) (τ : Nat × Nat → Option (Nat × Nat))
    (same : SameObservations (fun k => k < d2) c r d0 d1 (fun i j k => f (i, j, k)) d0' d1' (fun i j k => f' (i, j, k)) τ)
    (strict : Bool) (fuel : Nat) (randMax : ℝ) (rnd : ℝ → ℝ) (t : F) :
    oaggregate strict fuel randMax rnd (rArray d0' d1' d2 f') t = oaggregate strict fuel randMax rnd (rArray d0 d1 d2 f) t := by
  have hpos' : ∀ i j k, i < d0' → j < d1' → k < d2 → 0 ≤ f' (i, j, k) := by
    intro i j k hi hj hk
    cases e : τ (i, j) with
    | none => exact le_of_eq (same.zero i j hi hj e k hk).symm
    | some y =>
      obtain ⟨a, b, h⟩ := same.from' i j hi hj y.1 y.2 e
      have h := h k hk
      rw [h]
      exact mul_nonneg hc.le (hpos _ _ _ a b hk)
  obtain ⟨q, hq, key⟩ := oTable d0 d1 d2 f h0 h1 h2 h2' hF hpos
  obtain ⟨q', hq', key'⟩ := oTable d0' d1' d2 f' h0' h1' h2 h2' hF' hpos'
  have : q' = q := hq'.unique (hq.congr (fun i j hij hj => by
    symm
    refine same.relative hc hr (fun x hx => ?_) (fun x hx => ?_) <;> simp only [Finset.mem_Icc] at hx <;> omega))
  rw [key, key', this]

/-- `haggregate`: the series are those of each type and slice; each has a value for every leaf. -/
theorem hierarchical (d0 d1 d2 d1' d2' : Nat) (f f' : Nat × Nat × Nat → ℝ) (h : List Int) (h0 : 0 < d0) (h1 : 0 < d1) (h1' : 0 < d1')
    (hF : d1 * d2 < 2 ^ 32) (hF' : d1' * d2' < 2 ^ 32)
    (tree : IsTree d0 (h.map (· - 1)) ((h.map (· - 1)).length - 1)) (near : NearestFirst d0 (h.map (· - 1)))
    (hlt : d0 < (h.map (· - 1)).length)
    (hpos : ∀ i j k, i < d0 → j < d1 → k < d2 → 0 ≤ f (i, j, k))
    (_hg : gain3 d1 d2 (fun j k l => f (l, j, k)) (Finset.range d0) ≠ 0)
    (_hl : loss3 d1 d2 (fun j k l => f (l, j, k)) (Finset.range d0) ≠ 0)
    (c : ℝ) (hc : 0 < c) (r : Nat) (hr : 0 < r) (τ : Nat × Nat → Option (Nat × Nat))
    (same : SameObservations (fun l => l < d0) c r d1 d2 (fun j k l => f (l, j, k)) d1' d2' (fun j k l => f' (l, j, k)) τ)
    (strict : Bool) (fuel : Nat) (randMax : ℝ) (rnd : ℝ → ℝ) (t : F) :
    haggregate strict fuel randMax rnd (rArray d0 d1' d2' f') h t = haggregate strict fuel randMax rnd (rArray d0 d1 d2 f) h t := by
  have hpos' : ∀ i j k, i < d0 → j < d1' → k < d2' → 0 ≤ f' (i, j, k) := by
    intro i j k hi hj hk
    cases e : τ (j, k) with
    | none => exact le_of_eq (same.zero j k hj hk e i hi).symm
    | some y =>
      obtain ⟨a, b, h⟩ := same.from' j k hj hk y.1 y.2 e
      have h := h i hi
      rw [h]
      exact mul_nonneg hc.le (hpos _ _ _ hi a b)
  obtain ⟨md, q, m1, _, hq, key⟩ := hTable' d0 d1 d2 f h h0 h1 hF tree near hlt hpos
  obtain ⟨md', q', m1', _, hq', key'⟩ := hTable' d0 d1' d2' f' h h0 h1' hF' tree near hlt hpos'
  obtain rfl : md = md' := Except.ok.inj (m1.symm.trans m1')
  have : q' = q := hq'.unique (hq.congr (fun x hx => by
    symm
    exact same.relative hc hr (fun x hx => Finset.mem_range.mp hx) (fun x hx => (mem_leavesUnder.mp hx).1)))
  rw [key, key', this]

/-- `daggregate`: the series are those of each type; each has a value for every leaf and slice. -/
theorem spatiotemporal (d0 d1 d1' d2 : Nat) (f f' : Nat × Nat × Nat → ℝ) (h : List Int) (h0 : 0 < d0) (h1 : 0 < d1) (h1' : 0 < d1')
    (h2 : 0 < d2) (h2' : d2 ≤ 65535) (hb : d0 * d2 < 2147483648)
    (tree : IsTree d0 (h.map (· - 1)) ((h.map (· - 1)).length - 1)) (near : NearestFirst d0 (h.map (· - 1)))
    (hlt : d0 < (h.map (· - 1)).length)
    (hpos : ∀ i j k, i < d0 → j < d1 → k < d2 → 0 ≤ f (i, j, k))
    (_hg : gain3 d1 1 (fun j _ (c : Nat × Nat) => f (c.1, j, c.2)) (Finset.range d0 ×ˢ Finset.Icc 0 (d2 - 1)) ≠ 0)
    (_hl : loss3 d1 1 (fun j _ (c : Nat × Nat) => f (c.1, j, c.2)) (Finset.range d0 ×ˢ Finset.Icc 0 (d2 - 1)) ≠ 0)
    (c : ℝ) (hc : 0 < c) (r : Nat) (hr : 0 < r) (τ : Nat × Nat → Option (Nat × Nat))
    (same : SameObservations (fun x : Nat × Nat => x.1 < d0 ∧ x.2 < d2) c r d1 1 (fun j _ x => f (x.1, j, x.2))
      d1' 1 (fun j _ x => f' (x.1, j, x.2)) τ)
    (strict : Bool) (fuel : Nat) (randMax : ℝ) (rnd : ℝ → ℝ) (t : F) :
    daggregate strict fuel randMax rnd (rArray d0 d1' d2 f') h t = daggregate strict fuel randMax rnd (rArray d0 d1 d2 f) h t := by
  have hpos' : ∀ i j k, i < d0 → j < d1' → k < d2 → 0 ≤ f' (i, j, k) := by
    intro i j k hi hj hk
    cases e : τ (j, 0) with
    | none => exact le_of_eq (same.zero j 0 hj one_pos e (i, k) ⟨hi, hk⟩).symm
    | some y =>
      obtain ⟨a, b, h⟩ := same.from' j 0 hj one_pos y.1 y.2 e
      have h := h (i, k) ⟨hi, hk⟩
      rw [h]
      exact mul_nonneg hc.le (hpos _ _ _ hi a hk)
  obtain ⟨md, q, m1, _, hq, key⟩ := dTable d0 d1 d2 f h h0 h1 h2 h2' hb tree near hlt hpos
  obtain ⟨md', q', m1', _, hq', key'⟩ := dTable d0 d1' d2 f' h h0 h1' h2 h2' hb tree near hlt hpos'
  obtain rfl : md = md' := Except.ok.inj (m1.symm.trans m1')
  have : q' = q := hq'.unique (hq.congr (fun x i j hx hij hj => by
    symm
    refine same.relative hc hr (fun x hx => ?_) (fun x hx => ?_)
    · simp only [Finset.mem_product, Finset.mem_range, Finset.mem_Icc] at hx
      exact ⟨hx.1, by omega⟩
    · simp only [Finset.mem_product, mem_leavesUnder, Finset.mem_Icc] at hx
      exact ⟨hx.1.1, by omega⟩))
  rw [key, key', this]

theorem moved_aux {d0 : Nat} {parents parents' : List Int} {σ : Nat → Nat} (hσ : Renumbering parents parents' σ)
    (tree : IsTree d0 parents (parents.length - 1)) (tree' : IsTree d0 parents' (parents'.length - 1)) (l : Nat) (hl : l < d0) :
    ∃ i, i < d0 ∧ σ i = l := by
  obtain ⟨i, hi, e⟩ := hσ.surj (y := l) (by have := tree.leavesLe; omega)
  refine ⟨i, ?_, e⟩
  have := (hσ.leafIff tree tree' hi)
  rw [e] at this
  exact this.mp hl

/-- Another numbering of the hierarchy, `haggregate`: `h'` describes the same hierarchy as `h`, node `x + 1` having become node
`σ x + 1`, and the data are moved with the leaves.  The summary is the same; the rows of the partitions are the same up to
their order and the numbers of the nodes. -/
theorem renumbered (d0 d1 d2 : Nat) (f f' : Nat × Nat × Nat → ℝ) (h h' : List Int) (σ : Nat → Nat)
    (hσ : Renumbering (h.map (· - 1)) (h'.map (· - 1)) σ) (h0 : 0 < d0) (h1 : 0 < d1)
    (hF : d1 * d2 < 2 ^ 32)
    (tree : IsTree d0 (h.map (· - 1)) ((h.map (· - 1)).length - 1)) (near : NearestFirst d0 (h.map (· - 1)))
    (tree' : IsTree d0 (h'.map (· - 1)) ((h'.map (· - 1)).length - 1)) (near' : NearestFirst d0 (h'.map (· - 1)))
    (hlt : d0 < (h.map (· - 1)).length)
    (hpos : ∀ i j k, i < d0 → j < d1 → k < d2 → 0 ≤ f (i, j, k))
    (hmove : ∀ i j k, i < d0 → j < d1 → k < d2 → f' (σ i, j, k) = f (i, j, k))
    (_hg : gain3 d1 d2 (fun j k l => f (l, j, k)) (Finset.range d0) ≠ 0)
    (_hl : loss3 d1 d2 (fun j k l => f (l, j, k)) (Finset.range d0) ≠ 0)
    (strict : Bool) (fuel : Nat) (randMax : ℝ) (rnd : ℝ → ℝ) (t : F) :
    let a := haggregate strict fuel randMax rnd (rArray d0 d1 d2 f) h t
    let b := haggregate strict fuel randMax rnd (rArray d0 d1 d2 f') h' t
    b.map summary = a.map summary ∧
    ∀ r r', a = .ok r → b = .ok r' →
      r'.partitions.Perm (r.partitions.map (fun x => { x with node := (σ (x.node - 1).toNat : Int) + 1 })) := by
  have hlv := moved_aux hσ tree tree'
  have hpos' : ∀ i j k, i < d0 → j < d1 → k < d2 → 0 ≤ f' (i, j, k) := by
    intro i j k hi hj hk
    obtain ⟨i, hi', rfl⟩ := hlv i hi
    rw [hmove i j k hi' hj hk]
    exact hpos i j k hi' hj hk
  have hlt' : d0 < (h'.map (· - 1)).length := by rw [hσ.length]; exact hlt
  obtain ⟨md, q, m1, r, hq, key⟩ := hTable' d0 d1 d2 f h h0 h1 hF tree near hlt hpos
  obtain ⟨md', q', m1', r', hq', key'⟩ := hTable' d0 d1 d2 f' h' h0 h1 hF tree' near' hlt' hpos'
  have hrel : ∀ x, x < (h.map (· - 1)).length →
      gain3 d1 d2 (fun j k l => f' (l, j, k)) (leavesUnder d0 (h'.map (· - 1)) (σ x)) =
        gain3 d1 d2 (fun j k l => f (l, j, k)) (leavesUnder d0 (h.map (· - 1)) x) ∧
      loss3 d1 d2 (fun j k l => f' (l, j, k)) (leavesUnder d0 (h'.map (· - 1)) (σ x)) =
        loss3 d1 d2 (fun j k l => f (l, j, k)) (leavesUnder d0 (h.map (· - 1)) x) := by
    intro x hx
    rw [hσ.leavesUnder tree tree' hx]
    exact gain3_image (hσ.injLeaves tree x) (fun i j y hi hj hy => hmove y i j (mem_leavesUnder.mp hy).1 hi hj)
  have hall := hrel _ tree.rootLt
  rw [hσ.rootEq tree tree', leavesUnder_root tree', leavesUnder_root tree] at hall
  have hQ : ∀ x, x < (h.map (· - 1)).length → q'[σ x]? = q[x]? := by
    intro x hx
    rw [hq.cell x hx, hq'.cell (σ x) (by rw [hσ.length]; exact hσ.lt x hx)]
    unfold relative
    rw [(hrel x hx).1, (hrel x hx).2, hall.1, hall.2]
  have main := (C60.hierarchicalGiven (F := F) (fun a b c => by ring) d0 _ _ σ hσ md md' r r' hlt q q' hq.len
    (by rw [← hσ.length]; exact hq'.len) hQ).2 strict fuel t FloatP.zero (FloatP.oneSub FloatP.zero) PState.empty PState.empty
  intro a b
  have := rSearch_agree (row := fun (p, n, s, g, l) => (⟨p, (n : Int) + 1, s, g, l⟩ : HRow F ℝ))
    (row' := fun (p, n, s, g, l) => (⟨p, (n : Int) + 1, s, g, l⟩ : HRow F ℝ)) (randMax := randMax) (rnd := rnd)
    (g' := fun x : HRow F ℝ => { x with node := (σ (x.node - 1).toNat : Int) + 1 })
    (by rintro ⟨p, n, s, g, l⟩; simp) main
  rw [← key F, ← key' F] at this
  exact this

/-- Another numbering of the hierarchy, `daggregate`. -/
theorem renumberedTime (d0 d1 d2 : Nat) (f f' : Nat × Nat × Nat → ℝ) (h h' : List Int) (σ : Nat → Nat)
    (hσ : Renumbering (h.map (· - 1)) (h'.map (· - 1)) σ) (h0 : 0 < d0) (h1 : 0 < d1)
    (h2 : 0 < d2) (h2' : d2 ≤ 65535) (hb : d0 * d2 < 2147483648)
    (tree : IsTree d0 (h.map (· - 1)) ((h.map (· - 1)).length - 1)) (near : NearestFirst d0 (h.map (· - 1)))
    (tree' : IsTree d0 (h'.map (· - 1)) ((h'.map (· - 1)).length - 1)) (near' : NearestFirst d0 (h'.map (· - 1)))
    (hlt : d0 < (h.map (· - 1)).length)
    (hpos : ∀ i j k, i < d0 → j < d1 → k < d2 → 0 ≤ f (i, j, k))
    (hmove : ∀ i j k, i < d0 → j < d1 → k < d2 → f' (σ i, j, k) = f (i, j, k))
    (_hg : gain3 d1 1 (fun j _ (c : Nat × Nat) => f (c.1, j, c.2)) (Finset.range d0 ×ˢ Finset.Icc 0 (d2 - 1)) ≠ 0)
    (_hl : loss3 d1 1 (fun j _ (c : Nat × Nat) => f (c.1, j, c.2)) (Finset.range d0 ×ˢ Finset.Icc 0 (d2 - 1)) ≠ 0)
    (strict : Bool) (fuel : Nat) (randMax : ℝ) (rnd : ℝ → ℝ) (t : F) :
    let a := daggregate strict fuel randMax rnd (rArray d0 d1 d2 f) h t
    let b := daggregate strict fuel randMax rnd (rArray d0 d1 d2 f') h' t
    b.map summary = a.map summary ∧
    ∀ r r', a = .ok r → b = .ok r' →
      r'.partitions.Perm (r.partitions.map (fun x => { x with node := (σ (x.node - 1).toNat : Int) + 1 })) := by
  have hlv := moved_aux hσ tree tree'
  have hpos' : ∀ i j k, i < d0 → j < d1 → k < d2 → 0 ≤ f' (i, j, k) := by
    intro i j k hi hj hk
    obtain ⟨i, hi', rfl⟩ := hlv i hi
    rw [hmove i j k hi' hj hk]
    exact hpos i j k hi' hj hk
  have hlt' : d0 < (h'.map (· - 1)).length := by rw [hσ.length]; exact hlt
  obtain ⟨md, q, m1, r, hq, key⟩ := dTable d0 d1 d2 f h h0 h1 h2 h2' hb tree near hlt hpos
  obtain ⟨md', q', m1', r', hq', key'⟩ := dTable d0 d1 d2 f' h' h0 h1 h2 h2' hb tree' near' hlt' hpos'
  have hrel : ∀ x i j, x < (h.map (· - 1)).length → j < d2 →
      gain3 d1 1 (fun j _ (c : Nat × Nat) => f' (c.1, j, c.2)) (leavesUnder d0 (h'.map (· - 1)) (σ x) ×ˢ Finset.Icc i j) =
        gain3 d1 1 (fun j _ (c : Nat × Nat) => f (c.1, j, c.2)) (leavesUnder d0 (h.map (· - 1)) x ×ˢ Finset.Icc i j) ∧
      loss3 d1 1 (fun j _ (c : Nat × Nat) => f' (c.1, j, c.2)) (leavesUnder d0 (h'.map (· - 1)) (σ x) ×ˢ Finset.Icc i j) =
        loss3 d1 1 (fun j _ (c : Nat × Nat) => f (c.1, j, c.2)) (leavesUnder d0 (h.map (· - 1)) x ×ˢ Finset.Icc i j) := by
    intro x i j hx hj
    have e : leavesUnder d0 (h'.map (· - 1)) (σ x) ×ˢ Finset.Icc i j =
        (leavesUnder d0 (h.map (· - 1)) x ×ˢ Finset.Icc i j).image (fun y => (σ y.1, y.2)) := by
      rw [hσ.leavesUnder tree tree' hx]
      ext y
      simp only [Finset.mem_product, Finset.mem_image, Prod.exists]
      constructor
      · rintro ⟨⟨y', hy, hyx⟩, hx⟩; exact ⟨y', y.2, ⟨hy, hx⟩, by rw [hyx]⟩
      · rintro ⟨y', z, ⟨hy, hz⟩, rfl⟩; exact ⟨⟨y', hy, rfl⟩, hz⟩
    rw [e]
    refine gain3_image ?_ ?_
    · intro a ha b hb e
      simp only [Finset.coe_product, Set.mem_prod] at ha hb
      simp only [Prod.mk.injEq] at e
      exact Prod.ext (hσ.injLeaves tree x ha.1 hb.1 e.1) e.2
    · intro k _ y hk _ hy
      simp only [Finset.mem_product, mem_leavesUnder, Finset.mem_Icc] at hy
      exact hmove y.1 k y.2 hy.1.1 hk (by omega)
  have hall := hrel _ 0 (d2 - 1) tree.rootLt (by omega)
  rw [hσ.rootEq tree tree', leavesUnder_root tree', leavesUnder_root tree] at hall
  have main := (C60.spatiotemporalGiven (F := F) (fun a b c => by ring) d0 _ _ σ hσ md md' r r' d2 h2 h2' q q' _ _ hq hq' (by
    intro x i j hx hij hj
    unfold relative
    dsimp only
    rw [(hrel x i j hx hj).1, (hrel x i j hx hj).2, hall.1, hall.2])).2 strict fuel t FloatP.zero (FloatP.oneSub FloatP.zero)
      PState.empty PState.empty
  intro a b
  have := rSearch_agree
    (row := fun (p, n, s, a, b, g, l) => (⟨p, (n : Int) + 1, s, (a : Int) + 1, (b : Int) + 1, g, l⟩ : DRow F ℝ))
    (row' := fun (p, n, s, a, b, g, l) => (⟨p, (n : Int) + 1, s, (a : Int) + 1, (b : Int) + 1, g, l⟩ : DRow F ℝ))
    (randMax := randMax) (rnd := rnd)
    (g' := fun x : DRow F ℝ => { x with node := (σ (x.node - 1).toNat : Int) + 1 })
    (by rintro ⟨p, n, s, a, b, g, l⟩; simp) main
  rw [← key F, ← key' F] at this
  exact this

/-- Reversed time: the summary of `oaggregate` is the same. -/
theorem reversed (d0 d1 d2 : Nat) (f f' : Nat × Nat × Nat → ℝ) (h0 : 0 < d0) (h1 : 0 < d1) (h2 : 0 < d2) (h2' : d2 ≤ 65535)
    (hF : d0 * d1 < 2 ^ 32) (hpos : ∀ i j k, i < d0 → j < d1 → k < d2 → 0 ≤ f (i, j, k))
    (hrev : ∀ i j k, i < d0 → j < d1 → k < d2 → f' (i, j, k) = f (i, j, d2 - 1 - k))
    (_hg : gain3 d0 d1 (fun i j k => f (i, j, k)) (Finset.Icc 0 (d2 - 1)) ≠ 0)
    (_hl : loss3 d0 d1 (fun i j k => f (i, j, k)) (Finset.Icc 0 (d2 - 1)) ≠ 0)
    (strict : Bool) (fuel : Nat) (randMax : ℝ) (rnd : ℝ → ℝ) (t : F) :
    (oaggregate strict fuel randMax rnd (rArray d0 d1 d2 f') t).map summary =
      (oaggregate strict fuel randMax rnd (rArray d0 d1 d2 f) t).map summary := by
  obtain ⟨q, hq, key⟩ := oTable d0 d1 d2 f h0 h1 h2 h2' hF hpos
  obtain ⟨q', hq', key'⟩ := oTable d0 d1 d2 f' h0 h1 h2 h2' hF (fun i j k hi hj hk => by
    rw [hrev i j k hi hj hk]; exact hpos i j _ hi hj (by omega))
  have hrel : ∀ a b, a ≤ b → b < d2 →
      gain3 d0 d1 (fun i j k => f' (i, j, k)) (Finset.Icc a b) =
        gain3 d0 d1 (fun i j k => f (i, j, k)) (Finset.Icc (d2 - 1 - b) (d2 - 1 - a)) ∧
      loss3 d0 d1 (fun i j k => f' (i, j, k)) (Finset.Icc a b) =
        loss3 d0 d1 (fun i j k => f (i, j, k)) (Finset.Icc (d2 - 1 - b) (d2 - 1 - a)) := by
    intro a b hab hb
    rw [C61.icc_aux hab hb]
    refine gain3_image ?_ (fun i j x hi hj hx => ?_)
    · intro x hx y hy h
      simp only [Finset.coe_Icc, Set.mem_Icc] at hx hy h
      omega
    · simp only [Finset.mem_Icc] at hx
      rw [hrev i j _ hi hj (by omega)]
      congr 3; omega
  have hall := hrel 0 (d2 - 1) (Nat.zero_le _) (by omega)
  simp only [Nat.sub_self, Nat.sub_zero] at hall
  rw [key, key']
  refine rSearch_summary ((C61.orderedGiven (F := F) d2 q q' _ _ hq hq' (fun i j hij hj => ?_)).2 _ _ _ _ _ _ _)
  unfold relative
  dsimp only
  rw [(hrel i j hij hj).1, (hrel i j hij hj).2, hall.1, hall.2]

/-- A single space, whatever chain of nodes is put above it: the summary of `daggregate` is that of `oaggregate`. -/
theorem oneSpace (d1 d2 : Nat) (f : Nat × Nat × Nat → ℝ) (h : List Int) (h1 : 0 < d1) (h2 : 0 < d2) (h2' : d2 ≤ 65535)
    (hF : d1 < 2 ^ 32) (tree : IsTree 1 (h.map (· - 1)) ((h.map (· - 1)).length - 1)) (near : NearestFirst 1 (h.map (· - 1)))
    (hlt : 1 < (h.map (· - 1)).length) (hpos : ∀ i j k, i < 1 → j < d1 → k < d2 → 0 ≤ f (i, j, k))
    (_hg : gain3 1 d1 (fun i j k => f (i, j, k)) (Finset.Icc 0 (d2 - 1)) ≠ 0)
    (_hl : loss3 1 d1 (fun i j k => f (i, j, k)) (Finset.Icc 0 (d2 - 1)) ≠ 0)
    (strict : Bool) (fuel : Nat) (randMax : ℝ) (rnd : ℝ → ℝ) (t : F) :
    (daggregate strict fuel randMax rnd (rArray 1 d1 d2 f) h t).map summary =
      (oaggregate strict fuel randMax rnd (rArray 1 d1 d2 f) t).map summary := by
  obtain ⟨qo, hqo, key⟩ := oTable 1 d1 d2 f one_pos h1 h2 h2' (by omega) hpos
  obtain ⟨md, q, _, r, hq, key'⟩ := dTable 1 d1 d2 f h one_pos h1 h2 h2' (by omega) tree near hlt hpos
  have hu : ∀ x, x < (h.map (· - 1)).length → leavesUnder 1 (h.map (· - 1)) x = {0} := by
    intro x hx
    obtain ⟨l, hl, hu⟩ := tree.exists_leaf hx
    obtain rfl : l = 0 := by omega
    ext y
    rw [mem_leavesUnder, Finset.mem_singleton]
    constructor
    · rintro ⟨hy, _⟩; omega
    · rintro rfl; exact ⟨one_pos, hu⟩
  have hgl : ∀ a b : Nat,
      gain3 d1 1 (fun j _ (c : Nat × Nat) => f (c.1, j, c.2)) ({0} ×ˢ Finset.Icc a b) =
        gain3 1 d1 (fun i j k => f (i, j, k)) (Finset.Icc a b) ∧
      loss3 d1 1 (fun j _ (c : Nat × Nat) => f (c.1, j, c.2)) ({0} ×ˢ Finset.Icc a b) =
        loss3 1 d1 (fun i j k => f (i, j, k)) (Finset.Icc a b) := by
    intro a b
    have e : ({0} : Finset Nat) ×ˢ Finset.Icc a b = (Finset.Icc a b).image (fun x => (0, x)) := by
      ext ⟨x, y⟩
      simp only [Finset.mem_product, Finset.mem_singleton, Finset.mem_image, Prod.mk.injEq]
      constructor
      · rintro ⟨rfl, hy⟩; exact ⟨y, hy, rfl, rfl⟩
      · rintro ⟨z, hz, rfl, rfl⟩; exact ⟨rfl, hz⟩
    have g := gain3_image (a := d1) (b := 1) (V := fun j _ k => f (0, j, k)) (V' := fun j _ (c : Nat × Nat) => f (c.1, j, c.2))
      (s := Finset.Icc a b) (g := fun x => (0, x)) (fun x _ y _ h => (Prod.mk.inj h).2) (fun i j x _ _ _ => rfl)
    rw [e, g.1, g.2]
    unfold gain3 loss3
    simp
  have hall := hgl 0 (d2 - 1)
  have hr1 : Finset.range 1 = {0} := rfl
  have hq2 := hq.congr (g := fun _ i j => relative (gain3 1 d1 (fun i j k => f (i, j, k))) (loss3 1 d1 (fun i j k => f (i, j, k)))
      (Finset.Icc 0 (d2 - 1)) (fun I : Nat × Nat => Finset.Icc I.1 I.2) (i, j)) (fun x i j hx hij hj => by
    unfold relative
    dsimp only
    rw [hu x hx, hr1, (hgl i j).1, (hgl i j).2, hall.1, hall.2])
  rw [key, key']
  refine rSearch_summary (C61.curve _ _ (.ordered qo d2 _ hqo) (.spatiotemporal 1 _ md d2 q _ r h2 h2' hq2) ?_ _ _ _ _ _ _ _)
  intro p X X' e e'
  obtain ⟨P, Po, a1, a2, _, a4⟩ := C47.oneLeaf (F := F) _ md r d2 h2 h2' q qo _ hq2 hqo p
  change oBestPartition qo p = .ok X at e
  change dBestPartition q md p = .ok X' at e'
  rw [a2] at e; obtain rfl := Except.ok.inj e
  rw [a1] at e'; obtain rfl := Except.ok.inj e'
  exact a4


/-! ## The hypotheses are met by concrete inputs

The array of `R/example_simple.R` (two processes, two types, five slices). -/

theorem shipped_aux :
    (gain3 2 2 (fun i j k => C49.shippedAt (i, j, k)) (Finset.Icc 0 4) ≠ 0 ∧
      loss3 2 2 (fun i j k => C49.shippedAt (i, j, k)) (Finset.Icc 0 4) ≠ 0) ∧
    (gain3 2 5 (fun j k l => C49.shippedAt (l, j, k)) (Finset.range 2) ≠ 0 ∧
      loss3 2 5 (fun j k l => C49.shippedAt (l, j, k)) (Finset.range 2) ≠ 0) ∧
    (gain3 2 1 (fun j _ (c : Nat × Nat) => C49.shippedAt (c.1, j, c.2)) (Finset.range 2 ×ˢ Finset.Icc 0 4) ≠ 0 ∧
      loss3 2 1 (fun j _ (c : Nat × Nat) => C49.shippedAt (c.1, j, c.2)) (Finset.range 2 ×ˢ Finset.Icc 0 4) ≠ 0) ∧
    (gain3 1 2 (fun i j k => C49.shippedAt (i, j, k)) (Finset.Icc 0 4) ≠ 0 ∧
      loss3 1 2 (fun i j k => C49.shippedAt (i, j, k)) (Finset.Icc 0 4) ≠ 0) := by
  have hp : ∀ i j k : Nat, 0 ≤ C49.shippedAt (i, j, k) := fun i j k => by unfold C49.shippedAt; positivity
  refine ⟨?_, ?_, ?_, ?_⟩
  · exact C49.nz3_aux (m := 2) (n := 2) (v := fun i j k => C49.shippedAt (i, j, k)) (s := Finset.Icc 0 4) (by norm_num) (by norm_num)
      (fun i j x => hp _ _ _) (a := 0) (b := 1) (c := 0) (d := 1) (by simp) (by simp) (by simp [C49.shippedAt, C49.shippedTenths])
      (by simp [C49.shippedAt, C49.shippedTenths]) (by norm_num) (by simp) (by simp) (by simp [C49.shippedAt, C49.shippedTenths])
  · exact C49.nz3_aux (m := 2) (n := 5) (v := fun j k l => C49.shippedAt (l, j, k)) (s := Finset.range 2) (by norm_num) (by norm_num)
      (fun i j x => hp _ _ _) (a := 0) (b := 1) (c := 0) (d := 1) (by simp) (by simp) (by simp [C49.shippedAt, C49.shippedTenths])
      (by simp [C49.shippedAt, C49.shippedTenths]) (by norm_num) (by simp) (by simp) (by simp [C49.shippedAt, C49.shippedTenths])
  · exact C49.nz3_aux (m := 2) (n := 1) (v := fun j _ (c : Nat × Nat) => C49.shippedAt (c.1, j, c.2))
      (s := Finset.range 2 ×ˢ Finset.Icc 0 4) (by norm_num) (by norm_num)
      (fun i j x => hp _ _ _) (a := (0, 0)) (b := (0, 1)) (c := (0, 0)) (d := (0, 1)) (by simp) (by simp) (by simp [C49.shippedAt, C49.shippedTenths])
      (by simp [C49.shippedAt, C49.shippedTenths]) (by simp) (by simp) (by simp) (by simp [C49.shippedAt, C49.shippedTenths])
  · exact C49.nz3_aux (m := 1) (n := 2) (v := fun i j k => C49.shippedAt (i, j, k)) (s := Finset.Icc 0 4) (by norm_num) (by norm_num)
      (fun i j x => hp _ _ _) (a := 0) (b := 1) (c := 0) (d := 1) (by simp) (by simp) (by simp [C49.shippedAt, C49.shippedTenths])
      (by simp [C49.shippedAt, C49.shippedTenths]) (by norm_num) (by simp) (by simp) (by simp [C49.shippedAt, C49.shippedTenths])

theorem shippedPos_aux (i j k : Nat) : 0 ≤ C49.shippedAt (i, j, k) := by unfold C49.shippedAt; positivity

/-- The two types in the other order, then an empty one; the values in tenths. -/
noncomputable def rearranged (x : Nat × Nat × Nat) : ℝ :=
  match x.2.1 with
  | 0 => 10 * C49.shippedAt (x.1, 1, x.2.2)
  | 1 => 10 * C49.shippedAt (x.1, 0, x.2.2)
  | _ => 0

/-- `oaggregate`. -/
example (R : Rounding) (t : OverReal (B32 R)) (fuel : Nat) :
    oaggregate (F := OverReal (B32 R)) false fuel 2147483647 id (rArray 2 3 5 rearranged) t =
      oaggregate (F := OverReal (B32 R)) false fuel 2147483647 id (rArray 2 2 5 C49.shippedAt) t := by
  refine ordered 2 2 2 3 5 C49.shippedAt rearranged (by norm_num) (by norm_num) (by norm_num) (by norm_num) (by norm_num) (by norm_num)
    (by norm_num) (by norm_num) (fun i j k _ _ _ => shippedPos_aux i j k) shipped_aux.1.1 shipped_aux.1.2 10 (by norm_num) 1 (by norm_num)
    (fun x => match x.2 with | 0 => some (x.1, 1) | 1 => some (x.1, 0) | _ => none) ⟨?_, ?_, ?_⟩ _ _ _ _ _
  · intro i j hi hj i' j' e
    match j, hj with
    | 0, _ => simp only [Option.some.injEq, Prod.mk.injEq] at e; obtain ⟨rfl, rfl⟩ := e; exact ⟨hi, by norm_num, fun _ _ => rfl⟩
    | 1, _ => simp only [Option.some.injEq, Prod.mk.injEq] at e; obtain ⟨rfl, rfl⟩ := e; exact ⟨hi, by norm_num, fun _ _ => rfl⟩
    | 2, _ => simp at e
  · intro i j hi hj e
    match j, hj with
    | 0, _ => simp at e
    | 1, _ => simp at e
    | 2, _ => intro x _; rfl
  · intro i j hi hj
    interval_cases i <;> interval_cases j <;> decide

/-- `daggregate`, the same array. -/
example (R : Rounding) (t : OverReal (B32 R)) (fuel : Nat) :
    daggregate (F := OverReal (B32 R)) false fuel 2147483647 id (rArray 2 3 5 rearranged) [3, 3, 0] t =
      daggregate (F := OverReal (B32 R)) false fuel 2147483647 id (rArray 2 2 5 C49.shippedAt) [3, 3, 0] t := by
  have tree : IsTree 2 [2, 2, -1] 2 := .ofCheck (fun h => if h < 2 then 1 else 0) (by decide) (by decide) (by decide) (by decide)
  have near : NearestFirst 2 [2, 2, -1] :=
    balanced_nearestFirst tree (.ofCheck (fun h => if h < 2 then 0 else 1) (by decide) (by decide) (by decide))
  refine spatiotemporal 2 2 3 5 C49.shippedAt rearranged [3, 3, 0] (by norm_num) (by norm_num) (by norm_num) (by norm_num) (by norm_num)
    (by norm_num) tree near (by decide) (fun i j k _ _ _ => shippedPos_aux i j k) shipped_aux.2.2.1.1 shipped_aux.2.2.1.2 10 (by norm_num)
    1 (by norm_num) (fun x => match x.1 with | 0 => some (1, 0) | 1 => some (0, 0) | _ => none) ⟨?_, ?_, ?_⟩ _ _ _ _ _
  · intro j i hj hi j' i' e
    match j, hj with
    | 0, _ => simp only [Option.some.injEq, Prod.mk.injEq] at e; obtain ⟨rfl, rfl⟩ := e; exact ⟨by norm_num, by norm_num, fun _ _ => rfl⟩
    | 1, _ => simp only [Option.some.injEq, Prod.mk.injEq] at e; obtain ⟨rfl, rfl⟩ := e; exact ⟨by norm_num, by norm_num, fun _ _ => rfl⟩
    | 2, _ => simp at e
  · intro j i hj hi e
    match j, hj with
    | 0, _ => simp at e
    | 1, _ => simp at e
    | 2, _ => intro x _; rfl
  · intro i j hi hj
    interval_cases i <;> interval_cases j <;> decide

/-- `haggregate`: every slice twice. -/
example (R : Rounding) (t : OverReal (B32 R)) (fuel : Nat) :
    haggregate (F := OverReal (B32 R)) false fuel 2147483647 id (rArray 2 2 10 (fun x => C49.shippedAt (x.1, x.2.1, x.2.2 / 2))) [3, 3, 0] t =
      haggregate (F := OverReal (B32 R)) false fuel 2147483647 id (rArray 2 2 5 C49.shippedAt) [3, 3, 0] t := by
  have tree : IsTree 2 [2, 2, -1] 2 := .ofCheck (fun h => if h < 2 then 1 else 0) (by decide) (by decide) (by decide) (by decide)
  have near : NearestFirst 2 [2, 2, -1] :=
    balanced_nearestFirst tree (.ofCheck (fun h => if h < 2 then 0 else 1) (by decide) (by decide) (by decide))
  refine hierarchical 2 2 5 2 10 C49.shippedAt _ [3, 3, 0] (by norm_num) (by norm_num) (by norm_num) (by norm_num)
    (by norm_num) tree near (by decide) (fun i j k _ _ _ => shippedPos_aux i j k) shipped_aux.2.1.1 shipped_aux.2.1.2 1 (by norm_num)
    2 (by norm_num) (fun x => some (x.1, x.2 / 2)) ⟨?_, ?_, ?_⟩ _ _ _ _ _
  · intro j k hj hk j' k' e
    simp only [Option.some.injEq, Prod.mk.injEq] at e; obtain ⟨rfl, rfl⟩ := e
    exact ⟨hj, by omega, fun _ _ => by rw [one_mul]⟩
  · intro j k _ _ e; simp at e
  · intro i j hi hj
    interval_cases i <;> interval_cases j <;> decide

/-- The two processes exchanged. -/
example (R : Rounding) (t : OverReal (B32 R)) (fuel : Nat) :
    (haggregate (F := OverReal (B32 R)) false fuel 2147483647 id (rArray 2 2 5 (fun x => C49.shippedAt (1 - x.1, x.2))) [3, 3, 0] t).map summary =
      (haggregate (F := OverReal (B32 R)) false fuel 2147483647 id (rArray 2 2 5 C49.shippedAt) [3, 3, 0] t).map summary ∧
    (daggregate (F := OverReal (B32 R)) false fuel 2147483647 id (rArray 2 2 5 (fun x => C49.shippedAt (1 - x.1, x.2))) [3, 3, 0] t).map summary =
      (daggregate (F := OverReal (B32 R)) false fuel 2147483647 id (rArray 2 2 5 C49.shippedAt) [3, 3, 0] t).map summary := by
  have tree : IsTree 2 [2, 2, -1] 2 := .ofCheck (fun h => if h < 2 then 1 else 0) (by decide) (by decide) (by decide) (by decide)
  have near : NearestFirst 2 [2, 2, -1] :=
    balanced_nearestFirst tree (.ofCheck (fun h => if h < 2 then 0 else 1) (by decide) (by decide) (by decide))
  have hσ : Renumbering [2, 2, -1] [2, 2, -1] (fun x => if x < 2 then 1 - x else x) :=
    ⟨rfl, fun x hx => by simp at hx; interval_cases x <;> decide,
      fun x y hx hy h => by simp at hx hy; interval_cases x <;> interval_cases y <;> simp_all,
      fun x y hx hy => by simp at hx hy; interval_cases x <;> interval_cases y <;> simp [ParentIs]⟩
  refine ⟨(renumbered 2 2 5 C49.shippedAt _ [3, 3, 0] [3, 3, 0] _ hσ (by norm_num) (by norm_num) (by norm_num) tree near tree near
    (by decide) (fun i j k _ _ _ => shippedPos_aux i j k) (fun i j k hi _ _ => ?_) shipped_aux.2.1.1 shipped_aux.2.1.2 _ _ _ _ _).1,
    (renumberedTime 2 2 5 C49.shippedAt _ [3, 3, 0] [3, 3, 0] _ hσ (by norm_num) (by norm_num) (by norm_num) (by norm_num) (by norm_num)
    tree near tree near
    (by decide) (fun i j k _ _ _ => shippedPos_aux i j k) (fun i j k hi _ _ => ?_) shipped_aux.2.2.1.1 shipped_aux.2.2.1.2 _ _ _ _ _).1⟩
  all_goals interval_cases i <;> rfl

/-- Reversed time. -/
example (R : Rounding) (t : OverReal (B32 R)) (fuel : Nat) :
    (oaggregate (F := OverReal (B32 R)) false fuel 2147483647 id (rArray 2 2 5 (fun x => C49.shippedAt (x.1, x.2.1, 4 - x.2.2))) t).map summary =
      (oaggregate (F := OverReal (B32 R)) false fuel 2147483647 id (rArray 2 2 5 C49.shippedAt) t).map summary :=
  reversed 2 2 5 C49.shippedAt _ (by norm_num) (by norm_num) (by norm_num) (by norm_num) (by norm_num)
    (fun i j k _ _ _ => shippedPos_aux i j k) (fun _ _ _ _ _ _ => rfl) shipped_aux.1.1 shipped_aux.1.2 _ _ _ _ _

/-- The first process alone, with a root above it. -/
example (R : Rounding) (t : OverReal (B32 R)) (fuel : Nat) :
    (daggregate (F := OverReal (B32 R)) false fuel 2147483647 id (rArray 1 2 5 C49.shippedAt) [2, 0] t).map summary =
      (oaggregate (F := OverReal (B32 R)) false fuel 2147483647 id (rArray 1 2 5 C49.shippedAt) t).map summary := by
  have tree : IsTree 1 [1, -1] 1 := .ofCheck (fun h => if h < 1 then 1 else 0) (by decide) (by decide) (by decide) (by decide)
  have near : NearestFirst 1 [1, -1] :=
    balanced_nearestFirst tree (.ofCheck (fun h => if h < 1 then 0 else 1) (by decide) (by decide) (by decide))
  exact oneSpace 2 5 C49.shippedAt [2, 0] (by norm_num) (by norm_num) (by norm_num) (by norm_num) tree near (by decide)
    (fun i j k _ _ _ => shippedPos_aux i j k) shipped_aux.2.2.2.1 shipped_aux.2.2.2.2 _ _ _ _ _

end Lp.C94
