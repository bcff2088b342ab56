import Verif.Proofs.Aggregation
import Verif.Proofs.HPart
import Verif.Props.C03
import Mathlib.Tactic.NormNum
import Mathlib.Tactic.IntervalCases
import Verif.Proofs.Samples

/-!
# C37 — hierarchical and spatiotemporal aggregates

`subSum` looks up the children of the *part's* node at every level of its recursion.  Exactly three things can
happen, depending only on the node of the part (exact arithmetic, right metadata, at least two nodes):

* all its children are leaves: the aggregate is right;
* it is a leaf: the aggregate is 0 whatever the data;
* it has a child that is not a leaf: the constructor never returns (every recursion budget is exhausted).

The same for each of the seven aggregate classes.  `fuel + 2` is any budget from 2 on.
-/

namespace Lp.C37
open Spec

/-- Node `h` is an inner node and all its children are leaves. -/
structure LeafParent (leaves : Nat) (parents : List Int) (h : Nat) : Prop where
  node : h < parents.length
  inner : leaves ≤ h
  children : ∀ c, ParentIs parents c h → c < leaves

/-- Node `h` has a child that is not a leaf. -/
def HasInnerChild (leaves : Nat) (parents : List Int) (h : Nat) : Prop :=
  ∃ c, ParentIs parents c h ∧ leaves ≤ c

/-- There is no other case. -/
theorem cases (leaves : Nat) (parents : List Int) (h : Nat) (hh : h < parents.length) :
    LeafParent leaves parents h ∨ h < leaves ∨ HasInnerChild leaves parents h := by
  by_cases h1 : h < leaves
  · exact Or.inr (Or.inl h1)
  · by_cases h2 : HasInnerChild leaves parents h
    · exact Or.inr (Or.inr h2)
    · refine Or.inl ⟨hh, by omega, ?_⟩
      intro c hc
      by_contra h3
      exact h2 ⟨c, hc, by omega⟩

theorem HasInnerChild.node {leaves : Nat} {parents : List Int} {md : HMeta} (r : RightMeta leaves parents md) {h : Nat}
    (x : HasInnerChild leaves parents h) : h < parents.length := by
  obtain ⟨c, hc, _⟩ := x
  exact r.tree.parent_lt hc

variable {leaves : Nat} {parents : List Int} {md : HMeta}

/-! ## Hierarchical aggregates -/

/-- One number per leaf. -/
theorem aggregateN1 (r : RightMeta leaves parents md) (h2 : 2 ≤ parents.length) (c : HValuesN1 ℝ) (f : Nat → ℝ)
    (hc : c.Holds leaves md f) (h size : Nat) (q : Quality ℝ) :
    (LeafParent leaves parents h → ∀ fuel, hAggregateN1 (fuel + 2) c ⟨h, size, q⟩ =
      .ok ⟨⟨h, size, q⟩, nodeTotal leaves parents f h, nodeTotal leaves parents f h / (size : ℝ)⟩) ∧
    (h < leaves → ∀ fuel, hAggregateN1 (fuel + 2) c ⟨h, size, q⟩ = .ok ⟨⟨h, size, q⟩, 0, 0⟩) ∧
    (HasInnerChild leaves parents h → ∀ fuel, hAggregateN1 fuel c ⟨h, size, q⟩ = .error .outOfFuel) := by
  have hr := root_inner r.tree h2
  refine ⟨?_, ?_, ?_⟩
  · intro x fuel
    unfold hAggregateN1
    rw [hc.md, hAggCell_ok r (fun l hl => hc.read hl) hr q x.node x.inner x.children fuel]
    rfl
  · intro x fuel
    unfold hAggregateN1
    rw [hc.md, hAggCell_leaf r hr q x (fuel + 1)]
    rfl
  · intro x fuel
    unfold hAggregateN1
    rw [hc.md, hAggCell_endless r (fun l hl => hc.read hl) hr q (HasInnerChild.node r x) x.choose_spec.1 x.choose_spec.2 fuel]
    rfl

/-- Several series. -/
theorem aggregateN2 (r : RightMeta leaves parents md) (h2 : 2 ≤ parents.length) (c : HValuesN2 ℝ) (V : Nat) (f : Nat × Nat → ℝ)
    (hc : c.Holds leaves V md f) (h size : Nat) (q : Quality ℝ) :
    (LeafParent leaves parents h → ∀ fuel, hAggregateN2 (fuel + 2) c ⟨h, size, q⟩ =
      .ok ⟨⟨h, size, q⟩, (table1 V fun x => nodeTotal leaves parents (fun l => f (l, x)) h), (table1 V fun x => nodeTotal leaves parents (fun l => f (l, x)) h / (size : ℝ))⟩) ∧
    (h < leaves → ∀ fuel, hAggregateN2 (fuel + 2) c ⟨h, size, q⟩ = .ok ⟨⟨h, size, q⟩, (table1 V fun _ => 0), (table1 V fun _ => 0)⟩) ∧
    (HasInnerChild leaves parents h → 0 < V → ∀ fuel, hAggregateN2 fuel c ⟨h, size, q⟩ = .error .outOfFuel) := by
  have hr := root_inner r.tree h2
  refine ⟨?_, ?_, ?_⟩
  · intro x fuel
    unfold hAggregateN2
    rw [hc.vsize, hc.md, build_ok (fun a ha => hAggCell_ok r (fun l hl => hc.read hl ha) hr q x.node x.inner x.children fuel)]
    simp only [okBind, pureOk, table1_map]
  · intro x fuel
    unfold hAggregateN2
    rw [hc.vsize, hc.md, build_ok (fun a ha => hAggCell_leaf r hr q x (fuel + 1))]
    simp only [okBind, pureOk, table1_map]
  · intro x p0 fuel
    unfold hAggregateN2
    rw [hc.vsize, hc.md, build_err p0 (hAggCell_endless r (fun l hl => hc.read hl p0) hr q (HasInnerChild.node r x) x.choose_spec.1 x.choose_spec.2 fuel)]
    rfl

/-- Two-dimensional series. -/
theorem aggregateN3 (r : RightMeta leaves parents md) (h2 : 2 ≤ parents.length) (c : HValuesN3 ℝ) (I J : Nat) (f : Nat × Nat × Nat → ℝ)
    (hc : c.Holds leaves I J md f) (h size : Nat) (q : Quality ℝ) :
    (LeafParent leaves parents h → ∀ fuel, hAggregateN3 (fuel + 2) c ⟨h, size, q⟩ =
      .ok ⟨⟨h, size, q⟩, (table2 I J fun x => nodeTotal leaves parents (fun l => f (l, x.1, x.2)) h), (table2 I J fun x => nodeTotal leaves parents (fun l => f (l, x.1, x.2)) h / (size : ℝ))⟩) ∧
    (h < leaves → ∀ fuel, hAggregateN3 (fuel + 2) c ⟨h, size, q⟩ = .ok ⟨⟨h, size, q⟩, (table2 I J fun _ => 0), (table2 I J fun _ => 0)⟩) ∧
    (HasInnerChild leaves parents h → 0 < I → 0 < J → ∀ fuel, hAggregateN3 fuel c ⟨h, size, q⟩ = .error .outOfFuel) := by
  have hr := root_inner r.tree h2
  refine ⟨?_, ?_, ?_⟩
  · intro x fuel
    unfold hAggregateN3
    rw [hc.i, hc.j, hc.md, build_ok (fun a ha => build_ok (fun b hb => hAggCell_ok r (fun l hl => hc.read hl ha hb) hr q x.node x.inner x.children fuel))]
    simp only [okBind, pureOk, table1_map]; rfl
  · intro x fuel
    unfold hAggregateN3
    rw [hc.i, hc.j, hc.md, build_ok (fun a ha => build_ok (fun b hb => hAggCell_leaf r hr q x (fuel + 1)))]
    simp only [okBind, pureOk, table1_map]; rfl
  · intro x p0 p1 fuel
    unfold hAggregateN3
    rw [hc.i, hc.j, hc.md, build_err p0 (build_err p1 (hAggCell_endless r (fun l hl => hc.read hl p0 p1) hr q (HasInnerChild.node r x) x.choose_spec.1 x.choose_spec.2 fuel))]
    rfl

/-- Three-dimensional series. -/
theorem aggregateN4 (r : RightMeta leaves parents md) (h2 : 2 ≤ parents.length) (c : HValuesN4 ℝ) (I J Z : Nat) (f : Nat × Nat × Nat × Nat → ℝ)
    (hc : c.Holds leaves I J Z md f) (h size : Nat) (q : Quality ℝ) :
    (LeafParent leaves parents h → ∀ fuel, hAggregateN4 (fuel + 2) c ⟨h, size, q⟩ =
      .ok ⟨⟨h, size, q⟩, (table3 I J Z fun x => nodeTotal leaves parents (fun l => f (l, x.1, x.2.1, x.2.2)) h), (table3 I J Z fun x => nodeTotal leaves parents (fun l => f (l, x.1, x.2.1, x.2.2)) h / (size : ℝ))⟩) ∧
    (h < leaves → ∀ fuel, hAggregateN4 (fuel + 2) c ⟨h, size, q⟩ = .ok ⟨⟨h, size, q⟩, (table3 I J Z fun _ => 0), (table3 I J Z fun _ => 0)⟩) ∧
    (HasInnerChild leaves parents h → 0 < I → 0 < J → 0 < Z → ∀ fuel, hAggregateN4 fuel c ⟨h, size, q⟩ = .error .outOfFuel) := by
  have hr := root_inner r.tree h2
  refine ⟨?_, ?_, ?_⟩
  · intro x fuel
    unfold hAggregateN4
    rw [hc.i, hc.j, hc.k, hc.md, build_ok (fun a ha => build_ok (fun b hb => build_ok (fun k hk => hAggCell_ok r (fun l hl => hc.read hl ha hb hk) hr q x.node x.inner x.children fuel)))]
    simp only [okBind, pureOk, table1_map]; rfl
  · intro x fuel
    unfold hAggregateN4
    rw [hc.i, hc.j, hc.k, hc.md, build_ok (fun a ha => build_ok (fun b hb => build_ok (fun k hk => hAggCell_leaf r hr q x (fuel + 1))))]
    simp only [okBind, pureOk, table1_map]; rfl
  · intro x p0 p1 p2 fuel
    unfold hAggregateN4
    rw [hc.i, hc.j, hc.k, hc.md, build_err p0 (build_err p1 (build_err p2 (hAggCell_endless r (fun l hl => hc.read hl p0 p1 p2) hr q (HasInnerChild.node r x) x.choose_spec.1 x.choose_spec.2 fuel)))]
    rfl

/-! ## Spatiotemporal aggregates -/

/-- One series per leaf. -/
theorem dAggregateN2 (r : RightMeta leaves parents md) (h2 : 2 ≤ parents.length) (c : DValuesN2 ℝ) (O : Nat) (f : Nat × Nat → ℝ)
    (hc : c.Holds leaves O md f) (h hsize s e : Nat) (hse : s ≤ e) (he : e < O) (q : Quality ℝ) :
    (LeafParent leaves parents h → ∀ fuel, Lp.dAggregateN2 (fuel + 2) c ⟨h, hsize, s, e, q⟩ =
      .ok ⟨⟨h, hsize, s, e, q⟩, intervalTotal (fun o => nodeTotal leaves parents (fun l => f (l, o)) h) s e,
        intervalTotal (fun o => nodeTotal leaves parents (fun l => f (l, o)) h) s e / ((hsize : ℝ) * ((e : ℝ) - s + 1))⟩) ∧
    (h < leaves → ∀ fuel, Lp.dAggregateN2 (fuel + 2) c ⟨h, hsize, s, e, q⟩ = .ok ⟨⟨h, hsize, s, e, q⟩, 0, 0⟩) ∧
    (HasInnerChild leaves parents h → ∀ fuel, Lp.dAggregateN2 fuel c ⟨h, hsize, s, e, q⟩ = .error .outOfFuel) := by
  have hr := root_inner r.tree h2
  refine ⟨?_, ?_, ?_⟩
  · intro x fuel
    unfold Lp.dAggregateN2
    rw [hc.md, dAggCell_ok r (n := O) (fun l o hl ho => hc.read hl ho) hr q x.node x.inner x.children hse he fuel]
    rfl
  · intro x fuel
    unfold Lp.dAggregateN2
    rw [hc.md, dAggCell_leaf r hr q x hse (fuel + 1)]
    rfl
  · intro x fuel
    unfold Lp.dAggregateN2
    rw [hc.md, dAggCell_endless r (n := O) (fun l o hl ho => hc.read hl ho) hr q (HasInnerChild.node r x) x.choose_spec.1 x.choose_spec.2 hse he fuel]
    rfl

/-- Several series per leaf. -/
theorem dAggregateN3 (r : RightMeta leaves parents md) (h2 : 2 ≤ parents.length) (c : DValuesN3 ℝ) (V O : Nat) (f : Nat × Nat × Nat → ℝ)
    (hc : c.Holds leaves V O md f) (h hsize s e : Nat) (hse : s ≤ e) (he : e < O) (q : Quality ℝ) :
    (LeafParent leaves parents h → ∀ fuel, Lp.dAggregateN3 (fuel + 2) c ⟨h, hsize, s, e, q⟩ =
      .ok ⟨⟨h, hsize, s, e, q⟩, (table1 V fun x => intervalTotal (fun o => nodeTotal leaves parents (fun l => f (l, x, o)) h) s e),
        (table1 V fun x => intervalTotal (fun o => nodeTotal leaves parents (fun l => f (l, x, o)) h) s e / ((hsize : ℝ) * ((e : ℝ) - s + 1)))⟩) ∧
    (h < leaves → ∀ fuel, Lp.dAggregateN3 (fuel + 2) c ⟨h, hsize, s, e, q⟩ = .ok ⟨⟨h, hsize, s, e, q⟩, (table1 V fun _ => 0), (table1 V fun _ => 0)⟩) ∧
    (HasInnerChild leaves parents h → 0 < V → ∀ fuel, Lp.dAggregateN3 fuel c ⟨h, hsize, s, e, q⟩ = .error .outOfFuel) := by
  have hr := root_inner r.tree h2
  refine ⟨?_, ?_, ?_⟩
  · intro x fuel
    unfold Lp.dAggregateN3
    rw [hc.vsize, hc.md, build_ok (fun a ha => dAggCell_ok r (n := O) (fun l o hl ho => hc.read hl ha ho) hr q x.node x.inner x.children hse he fuel)]
    simp only [okBind, pureOk, table1_map]
  · intro x fuel
    unfold Lp.dAggregateN3
    rw [hc.vsize, hc.md, build_ok (fun a ha => dAggCell_leaf r hr q x hse (fuel + 1))]
    simp only [okBind, pureOk, table1_map]
  · intro x p0 fuel
    unfold Lp.dAggregateN3
    rw [hc.vsize, hc.md, build_err p0 (dAggCell_endless r (n := O) (fun l o hl ho => hc.read hl p0 ho) hr q (HasInnerChild.node r x) x.choose_spec.1 x.choose_spec.2 hse he fuel)]
    rfl

/-- Two-dimensional series per leaf. -/
theorem dAggregateN4 (r : RightMeta leaves parents md) (h2 : 2 ≤ parents.length) (c : DValuesN4 ℝ) (I J O : Nat) (f : Nat × Nat × Nat × Nat → ℝ)
    (hc : c.Holds leaves I J O md f) (h hsize s e : Nat) (hse : s ≤ e) (he : e < O) (q : Quality ℝ) :
    (LeafParent leaves parents h → ∀ fuel, Lp.dAggregateN4 (fuel + 2) c ⟨h, hsize, s, e, q⟩ =
      .ok ⟨⟨h, hsize, s, e, q⟩, (table2 I J fun x => intervalTotal (fun o => nodeTotal leaves parents (fun l => f (l, x.1, x.2, o)) h) s e),
        (table2 I J fun x => intervalTotal (fun o => nodeTotal leaves parents (fun l => f (l, x.1, x.2, o)) h) s e / ((hsize : ℝ) * ((e : ℝ) - s + 1)))⟩) ∧
    (h < leaves → ∀ fuel, Lp.dAggregateN4 (fuel + 2) c ⟨h, hsize, s, e, q⟩ = .ok ⟨⟨h, hsize, s, e, q⟩, (table2 I J fun _ => 0), (table2 I J fun _ => 0)⟩) ∧
    (HasInnerChild leaves parents h → 0 < I → 0 < J → ∀ fuel, Lp.dAggregateN4 fuel c ⟨h, hsize, s, e, q⟩ = .error .outOfFuel) := by
  have hr := root_inner r.tree h2
  refine ⟨?_, ?_, ?_⟩
  · intro x fuel
    unfold Lp.dAggregateN4
    rw [hc.i, hc.j, hc.md, build_ok (fun a ha => build_ok (fun b hb => dAggCell_ok r (n := O) (fun l o hl ho => hc.read hl ha hb ho) hr q x.node x.inner x.children hse he fuel))]
    simp only [okBind, pureOk, table1_map]; rfl
  · intro x fuel
    unfold Lp.dAggregateN4
    rw [hc.i, hc.j, hc.md, build_ok (fun a ha => build_ok (fun b hb => dAggCell_leaf r hr q x hse (fuel + 1)))]
    simp only [okBind, pureOk, table1_map]; rfl
  · intro x p0 p1 fuel
    unfold Lp.dAggregateN4
    rw [hc.i, hc.j, hc.md, build_err p0 (build_err p1 (dAggCell_endless r (n := O) (fun l o hl ho => hc.read hl p0 p1 ho) hr q (HasInnerChild.node r x) x.choose_spec.1 x.choose_spec.2 hse he fuel))]
    rfl

/-! ## Consequences -/

/-- The hierarchical aggregate of a node is right for all data exactly if the node is inner and all its children are
leaves. -/
theorem rightIff (r : RightMeta leaves parents md) (h2 : 2 ≤ parents.length) (h size : Nat) (q : Quality ℝ)
    (hh : h < parents.length) :
    (∀ (c : HValuesN1 ℝ) (f : Nat → ℝ), c.Holds leaves md f →
      ∃ fuel a, hAggregateN1 fuel c ⟨h, size, q⟩ = .ok a ∧ a.sum = nodeTotal leaves parents f h) ↔
    LeafParent leaves parents h := by
  constructor
  · intro H
    rcases cases leaves parents h hh with x | x | x
    · exact x
    · obtain ⟨fuel, a, h3, h4⟩ := H ⟨1, md, table1 leaves fun _ => 1⟩ (fun _ => 1) ⟨rfl, rfl, rfl⟩
      have h5 := (aggregateN1 r h2 ⟨1, md, table1 leaves fun _ => 1⟩ (fun _ => 1) ⟨rfl, rfl, rfl⟩ h size q).2.1 x
      have h6 : nodeTotal leaves parents (fun _ => (1 : ℝ)) h = 1 := by
        unfold nodeTotal; rw [leavesUnder_leaf r.tree x, Finset.sum_singleton]
      have h7 : a.sum = 0 := by
        match fuel, h3 with
        | 0, h3 => simp [hAggregateN1, hAggCell, subSum] at h3
        | 1, h3 =>
          unfold hAggregateN1 at h3
          rw [hAggCell_leaf r (root_inner r.tree h2) q x 0] at h3
          simp only [okBind, pureOk, Except.ok.injEq] at h3
          rw [← h3]
        | fuel + 2, h3 =>
          rw [h5 fuel, Except.ok.injEq] at h3
          rw [← h3]
      rw [h7, h6] at h4
      exact absurd h4 (by norm_num)
    · obtain ⟨fuel, a, h3, _⟩ := H ⟨1, md, table1 leaves fun _ => 1⟩ (fun _ => 1) ⟨rfl, rfl, rfl⟩
      rw [(aggregateN1 r h2 _ (fun _ => 1) ⟨rfl, rfl, rfl⟩ h size q).2.2 x fuel] at h3
      simp at h3
  · intro x c f hc
    exact ⟨2, _, (aggregateN1 r h2 c f hc h size q).1 x 0, rfl⟩

/-- A loop over parts some of whose aggregates never return, the others returning or not. -/
theorem aggregation_endless_aux {P α : Type} {agg : P → Res α} {l : List P}
    (h : ∀ p ∈ l, (∃ y, agg p = .ok y) ∨ agg p = .error .outOfFuel)
    (hx : ∃ p ∈ l, agg p = .error .outOfFuel) : aggregation agg l = .error .outOfFuel := by
  suffices H : ∀ s : List α, forEach (fun p l => do let a ← agg p; return l ++ [a]) l s = .error .outOfFuel from H []
  intro s
  induction l generalizing s with
  | nil => simp at hx
  | cons c l ih =>
    rcases h c (by simp) with ⟨y, hy⟩ | hy
    · simp only [forEach, hy, okBind, pureOk]
      refine ih (fun d hd => h d (by simp [hd])) ?_ _
      obtain ⟨d, hd, hd'⟩ := hx
      rcases List.mem_cons.mp hd with rfl | hd
      · rw [hy] at hd'; simp at hd'
      · exact ⟨d, hd, hd'⟩
    · simp only [forEach, hy, errBind]

/-- The aggregation of a partition never returns if one of its parts has a child that is not a leaf. -/
theorem partitionEndless (r : RightMeta leaves parents md) (h2 : 2 ≤ parents.length) (c : HValuesN1 ℝ) (f : Nat → ℝ)
    (hc : c.Holds leaves md f) (parts : List (HPart ℝ)) (hn : ∀ p ∈ parts, p.h < parents.length)
    (hx : ∃ p ∈ parts, HasInnerChild leaves parents p.h) (fuel : Nat) :
    aggregation (hAggregateN1 fuel c) parts = .error .outOfFuel := by
  apply aggregation_endless_aux
  · intro p hp
    obtain ⟨h, size, q⟩ := p
    have hr := root_inner r.tree h2
    obtain ⟨g1, g2, g3⟩ := aggregateN1 r h2 c f hc h size q
    match fuel with
    | 0 => right; rfl
    | 1 =>
      rcases cases leaves parents h (hn _ hp) with x | x | x
      · right
        obtain ⟨l, hl, hu⟩ := r.tree.exists_leaf x.node
        obtain ⟨ch, e1, e2, e3⟩ := r.children h x.node
        unfold hAggregateN1 hAggCell subSum
        rw [hc.md, r.leaveSize, if_neg (by omega), vget_eq_ok.mpr e1]
        cases ch with
        | nil =>
          exfalso
          rcases under_iff.mp hu with e | ⟨c, h3, _⟩
          · have := x.inner; omega
          · simpa using (e3 c).mpr h3
        | cons c ch => rfl
      · left
        refine ⟨⟨⟨h, size, q⟩, 0, 0⟩, ?_⟩
        unfold hAggregateN1
        rw [hc.md, hAggCell_leaf r hr q x 0]
        rfl
      · right; exact g3 x 1
    | fuel + 2 =>
      rcases cases leaves parents h (hn _ hp) with x | x | x
      · left; exact ⟨_, g1 x fuel⟩
      · left; exact ⟨_, g2 x fuel⟩
      · right; exact g3 x _
  · obtain ⟨p, hp, x⟩ := hx
    exact ⟨p, hp, (aggregateN1 r h2 c f hc p.h p.size p.quality).2.2 x fuel⟩

/-- The coarsest partition `{root}` of a hierarchy with more than two levels: its aggregation never returns. -/
theorem rootEndless (r : RightMeta leaves parents md) (h2 : 2 ≤ parents.length) (c : HValuesN1 ℝ) (f : Nat → ℝ)
    (hc : c.Holds leaves md f) (size : Nat) (q : Quality ℝ) (hx : HasInnerChild leaves parents md.root) (fuel : Nat) :
    aggregation (hAggregateN1 fuel c) [⟨md.root, size, q⟩] = .error .outOfFuel :=
  partitionEndless r h2 c f hc _ (by simpa using r.tree.rootLt) ⟨⟨md.root, size, q⟩, by simp, hx⟩ fuel

/-- The finest partition (all leaves): every sum and every mean is 0, whatever the data. -/
theorem leavesZero (r : RightMeta leaves parents md) (h2 : 2 ≤ parents.length) (c : HValuesN1 ℝ) (f : Nat → ℝ)
    (hc : c.Holds leaves md f) (qs : Nat → Quality ℝ) (fuel : Nat) :
    ∃ as, aggregation (hAggregateN1 (fuel + 2) c) ((List.range leaves).map fun l => ⟨l, 1, qs l⟩) = .ok as ∧
      as.length = leaves ∧ ∀ a ∈ as, a.sum = 0 ∧ a.mean = 0 := by
  refine ⟨_, aggregation_ok (g := fun p => ⟨p, 0, 0⟩) ?_, by simp, ?_⟩
  · intro p hp
    obtain ⟨l, hl, rfl⟩ := List.mem_map.mp hp
    exact (aggregateN1 r h2 c f hc l 1 (qs l)).2.1 (List.mem_range.mp hl) fuel
  · intro a ha
    obtain ⟨p, _, rfl⟩ := List.mem_map.mp ha
    exact ⟨rfl, rfl⟩

/-! ## The other dimensions -/

theorem table_ne1_aux {n : Nat} (hn : 0 < n) {g : Nat → ℝ} (hg : ∀ x, g x ≠ 0) :
    table1 n (fun _ => (0 : ℝ)) = table1 n g → False := by
  intro h
  have := congrArg (fun l => l[0]?) h
  simp [table1, hn] at this
  exact hg 0 this.symm

theorem table_ne2_aux {a b : Nat} (ha : 0 < a) (hb : 0 < b) {g : Nat × Nat → ℝ} (hg : ∀ x, g x ≠ 0) :
    table2 a b (fun _ => (0 : ℝ)) = table2 a b g → False := by
  intro h
  have := congrArg (fun l => l[0]?) h
  simp only [table2, List.getElem?_map, List.getElem?_range ha, Option.map_some, Option.some.injEq] at this
  exact table_ne1_aux hb (fun y => hg (0, y)) this

theorem table_ne3_aux {a b c : Nat} (ha : 0 < a) (hb : 0 < b) (hc : 0 < c) {g : Nat × Nat × Nat → ℝ} (hg : ∀ x, g x ≠ 0) :
    table3 a b c (fun _ => (0 : ℝ)) = table3 a b c g → False := by
  intro h
  have := congrArg (fun l => l[0]?) h
  simp only [table3, List.getElem?_map, List.getElem?_range ha, Option.map_some, Option.some.injEq] at this
  exact table_ne2_aux hb hc (fun y => hg (0, y)) this

/-- Hierarchical, several series: for positive data the constructor returns the right sums exactly if the node is inner
and all its children are leaves. -/
theorem rightIffN2 (r : RightMeta leaves parents md) (h2 : 2 ≤ parents.length) (c : HValuesN2 ℝ) (V : Nat)
    (f : Nat × Nat → ℝ) (hc : c.Holds leaves V md f) (hV : 0 < V) (hf : ∀ x, 0 < f x) (h size : Nat) (q : Quality ℝ)
    (hh : h < parents.length) :
    (∃ N, ∀ fuel, N ≤ fuel → ∃ a, hAggregateN2 fuel c ⟨h, size, q⟩ = .ok a ∧ a.sum = (table1 V fun x => nodeTotal leaves parents (fun l => f (l, x)) h)) ↔ LeafParent leaves parents h := by
  obtain ⟨g1, g2, g3⟩ := aggregateN2 r h2 c V f hc h size q
  constructor
  · rintro ⟨N, hN⟩
    obtain ⟨a, h3, h5⟩ := hN (N + 2) (by omega)
    rcases cases leaves parents h hh with y | y | y
    · exact y
    · exfalso
      have hp : ∀ x : Nat, (fun x : Nat => nodeTotal leaves parents (fun l => f (l, x)) h) x ≠ 0 := by
        intro x
        show nodeTotal leaves parents (fun l => f (l, x)) h ≠ 0
        unfold nodeTotal; rw [leavesUnder_leaf r.tree y, Finset.sum_singleton]
        exact (hf _).ne'
      rw [g2 y N, Except.ok.injEq] at h3
      rw [← h3] at h5
      exact table_ne1_aux hV hp h5
    · rw [g3 y hV (N + 2)] at h3
      simp at h3
  · intro y
    refine ⟨2, fun fuel hfu => ?_⟩
    obtain ⟨d, rfl⟩ : ∃ d, fuel = d + 2 := ⟨fuel - 2, by omega⟩
    exact ⟨_, g1 y d, rfl⟩

/-- Hierarchical, several series: the aggregation of a partition never returns if one of its parts has a child that is not a
leaf; that of parts that are leaves gives zeros. -/
theorem partitionN2 (r : RightMeta leaves parents md) (h2 : 2 ≤ parents.length) (c : HValuesN2 ℝ) (V : Nat)
    (f : Nat × Nat → ℝ) (hc : c.Holds leaves V md f) (hV : 0 < V) (parts : List (HPart ℝ))
    (hn : ∀ p ∈ parts, p.h < parents.length) :
    ((∃ p ∈ parts, HasInnerChild leaves parents p.h) → ∀ fuel, aggregation (hAggregateN2 (fuel + 2) c) parts = .error .outOfFuel) ∧
    ((∀ p ∈ parts, p.h < leaves) → ∀ fuel, aggregation (hAggregateN2 (fuel + 2) c) parts =
      .ok (parts.map (fun p => ⟨p, (table1 V fun _ => (0 : ℝ)), (table1 V fun _ => (0 : ℝ))⟩))) := by
  constructor
  · intro hx fuel
    apply aggregation_endless_aux
    · intro p hp
      obtain ⟨g1, g2, g3⟩ := aggregateN2 r h2 c V f hc p.h p.size p.quality
      rcases cases leaves parents p.h (hn p hp) with y | y | y
      · left; exact ⟨_, g1 y fuel⟩
      · left; exact ⟨_, g2 y fuel⟩
      · right; exact g3 y hV _
    · obtain ⟨p, hp, y⟩ := hx
      exact ⟨p, hp, (aggregateN2 r h2 c V f hc p.h p.size p.quality).2.2 y hV _⟩
  · intro hl fuel
    apply aggregation_ok
    intro p hp
    exact (aggregateN2 r h2 c V f hc p.h p.size p.quality).2.1 (hl p hp) fuel

/-- Hierarchical, two-dimensional series: for positive data the constructor returns the right sums exactly if the node is inner
and all its children are leaves. -/
theorem rightIffN3 (r : RightMeta leaves parents md) (h2 : 2 ≤ parents.length) (c : HValuesN3 ℝ) (I J : Nat)
    (f : Nat × Nat × Nat → ℝ) (hc : c.Holds leaves I J md f) (hI : 0 < I) (hJ : 0 < J) (hf : ∀ x, 0 < f x) (h size : Nat) (q : Quality ℝ)
    (hh : h < parents.length) :
    (∃ N, ∀ fuel, N ≤ fuel → ∃ a, hAggregateN3 fuel c ⟨h, size, q⟩ = .ok a ∧ a.sum = (table2 I J fun x => nodeTotal leaves parents (fun l => f (l, x.1, x.2)) h)) ↔ LeafParent leaves parents h := by
  obtain ⟨g1, g2, g3⟩ := aggregateN3 r h2 c I J f hc h size q
  constructor
  · rintro ⟨N, hN⟩
    obtain ⟨a, h3, h5⟩ := hN (N + 2) (by omega)
    rcases cases leaves parents h hh with y | y | y
    · exact y
    · exfalso
      have hp : ∀ x : Nat × Nat, (fun x : Nat × Nat => nodeTotal leaves parents (fun l => f (l, x.1, x.2)) h) x ≠ 0 := by
        intro x
        show nodeTotal leaves parents (fun l => f (l, x.1, x.2)) h ≠ 0
        unfold nodeTotal; rw [leavesUnder_leaf r.tree y, Finset.sum_singleton]
        exact (hf _).ne'
      rw [g2 y N, Except.ok.injEq] at h3
      rw [← h3] at h5
      exact table_ne2_aux hI hJ hp h5
    · rw [g3 y hI hJ (N + 2)] at h3
      simp at h3
  · intro y
    refine ⟨2, fun fuel hfu => ?_⟩
    obtain ⟨d, rfl⟩ : ∃ d, fuel = d + 2 := ⟨fuel - 2, by omega⟩
    exact ⟨_, g1 y d, rfl⟩

/-- Hierarchical, two-dimensional series: the aggregation of a partition never returns if one of its parts has a child that is not a
leaf; that of parts that are leaves gives zeros. -/
theorem partitionN3 (r : RightMeta leaves parents md) (h2 : 2 ≤ parents.length) (c : HValuesN3 ℝ) (I J : Nat)
    (f : Nat × Nat × Nat → ℝ) (hc : c.Holds leaves I J md f) (hI : 0 < I) (hJ : 0 < J) (parts : List (HPart ℝ))
    (hn : ∀ p ∈ parts, p.h < parents.length) :
    ((∃ p ∈ parts, HasInnerChild leaves parents p.h) → ∀ fuel, aggregation (hAggregateN3 (fuel + 2) c) parts = .error .outOfFuel) ∧
    ((∀ p ∈ parts, p.h < leaves) → ∀ fuel, aggregation (hAggregateN3 (fuel + 2) c) parts =
      .ok (parts.map (fun p => ⟨p, (table2 I J fun _ => (0 : ℝ)), (table2 I J fun _ => (0 : ℝ))⟩))) := by
  constructor
  · intro hx fuel
    apply aggregation_endless_aux
    · intro p hp
      obtain ⟨g1, g2, g3⟩ := aggregateN3 r h2 c I J f hc p.h p.size p.quality
      rcases cases leaves parents p.h (hn p hp) with y | y | y
      · left; exact ⟨_, g1 y fuel⟩
      · left; exact ⟨_, g2 y fuel⟩
      · right; exact g3 y hI hJ _
    · obtain ⟨p, hp, y⟩ := hx
      exact ⟨p, hp, (aggregateN3 r h2 c I J f hc p.h p.size p.quality).2.2 y hI hJ _⟩
  · intro hl fuel
    apply aggregation_ok
    intro p hp
    exact (aggregateN3 r h2 c I J f hc p.h p.size p.quality).2.1 (hl p hp) fuel

/-- Hierarchical, three-dimensional series: for positive data the constructor returns the right sums exactly if the node is inner
and all its children are leaves. -/
theorem rightIffN4 (r : RightMeta leaves parents md) (h2 : 2 ≤ parents.length) (c : HValuesN4 ℝ) (I J Z : Nat)
    (f : Nat × Nat × Nat × Nat → ℝ) (hc : c.Holds leaves I J Z md f) (hI : 0 < I) (hJ : 0 < J) (hZ : 0 < Z) (hf : ∀ x, 0 < f x) (h size : Nat) (q : Quality ℝ)
    (hh : h < parents.length) :
    (∃ N, ∀ fuel, N ≤ fuel → ∃ a, hAggregateN4 fuel c ⟨h, size, q⟩ = .ok a ∧ a.sum = (table3 I J Z fun x => nodeTotal leaves parents (fun l => f (l, x.1, x.2.1, x.2.2)) h)) ↔ LeafParent leaves parents h := by
  obtain ⟨g1, g2, g3⟩ := aggregateN4 r h2 c I J Z f hc h size q
  constructor
  · rintro ⟨N, hN⟩
    obtain ⟨a, h3, h5⟩ := hN (N + 2) (by omega)
    rcases cases leaves parents h hh with y | y | y
    · exact y
    · exfalso
      have hp : ∀ x : Nat × Nat × Nat, (fun x : Nat × Nat × Nat => nodeTotal leaves parents (fun l => f (l, x.1, x.2.1, x.2.2)) h) x ≠ 0 := by
        intro x
        show nodeTotal leaves parents (fun l => f (l, x.1, x.2.1, x.2.2)) h ≠ 0
        unfold nodeTotal; rw [leavesUnder_leaf r.tree y, Finset.sum_singleton]
        exact (hf _).ne'
      rw [g2 y N, Except.ok.injEq] at h3
      rw [← h3] at h5
      exact table_ne3_aux hI hJ hZ hp h5
    · rw [g3 y hI hJ hZ (N + 2)] at h3
      simp at h3
  · intro y
    refine ⟨2, fun fuel hfu => ?_⟩
    obtain ⟨d, rfl⟩ : ∃ d, fuel = d + 2 := ⟨fuel - 2, by omega⟩
    exact ⟨_, g1 y d, rfl⟩

/-- Hierarchical, three-dimensional series: the aggregation of a partition never returns if one of its parts has a child that is not a
leaf; that of parts that are leaves gives zeros. -/
theorem partitionN4 (r : RightMeta leaves parents md) (h2 : 2 ≤ parents.length) (c : HValuesN4 ℝ) (I J Z : Nat)
    (f : Nat × Nat × Nat × Nat → ℝ) (hc : c.Holds leaves I J Z md f) (hI : 0 < I) (hJ : 0 < J) (hZ : 0 < Z) (parts : List (HPart ℝ))
    (hn : ∀ p ∈ parts, p.h < parents.length) :
    ((∃ p ∈ parts, HasInnerChild leaves parents p.h) → ∀ fuel, aggregation (hAggregateN4 (fuel + 2) c) parts = .error .outOfFuel) ∧
    ((∀ p ∈ parts, p.h < leaves) → ∀ fuel, aggregation (hAggregateN4 (fuel + 2) c) parts =
      .ok (parts.map (fun p => ⟨p, (table3 I J Z fun _ => (0 : ℝ)), (table3 I J Z fun _ => (0 : ℝ))⟩))) := by
  constructor
  · intro hx fuel
    apply aggregation_endless_aux
    · intro p hp
      obtain ⟨g1, g2, g3⟩ := aggregateN4 r h2 c I J Z f hc p.h p.size p.quality
      rcases cases leaves parents p.h (hn p hp) with y | y | y
      · left; exact ⟨_, g1 y fuel⟩
      · left; exact ⟨_, g2 y fuel⟩
      · right; exact g3 y hI hJ hZ _
    · obtain ⟨p, hp, y⟩ := hx
      exact ⟨p, hp, (aggregateN4 r h2 c I J Z f hc p.h p.size p.quality).2.2 y hI hJ hZ _⟩
  · intro hl fuel
    apply aggregation_ok
    intro p hp
    exact (aggregateN4 r h2 c I J Z f hc p.h p.size p.quality).2.1 (hl p hp) fuel

/-- Spatiotemporal, one series per leaf: for positive data the constructor returns the right sums exactly if the node is inner
and all its children are leaves. -/
theorem dRightIffN2 (r : RightMeta leaves parents md) (h2 : 2 ≤ parents.length) (c : DValuesN2 ℝ) (O : Nat)
    (f : Nat × Nat → ℝ) (hc : c.Holds leaves O md f) (hf : ∀ x, 0 < f x) (h hsize s e : Nat) (hse : s ≤ e) (he : e < O) (q : Quality ℝ)
    (hh : h < parents.length) :
    (∃ N, ∀ fuel, N ≤ fuel → ∃ a, Lp.dAggregateN2 fuel c ⟨h, hsize, s, e, q⟩ = .ok a ∧ a.sum = intervalTotal (fun o => nodeTotal leaves parents (fun l => f (l, o)) h) s e) ↔ LeafParent leaves parents h := by
  obtain ⟨g1, g2, g3⟩ := dAggregateN2 r h2 c O f hc h hsize s e hse he q
  constructor
  · rintro ⟨N, hN⟩
    obtain ⟨a, h3, h5⟩ := hN (N + 2) (by omega)
    rcases cases leaves parents h hh with y | y | y
    · exact y
    · exfalso
      have hp : ∀ x : Nat, (fun x : Nat => intervalTotal (fun o => nodeTotal leaves parents (fun l => f (l, o)) h) s e) x ≠ 0 := by
        intro x
        show intervalTotal (fun o => nodeTotal leaves parents (fun l => f (l, o)) h) s e ≠ 0
        unfold intervalTotal nodeTotal; rw [leavesUnder_leaf r.tree y]
        simp only [Finset.sum_singleton]
        exact (Finset.sum_pos (fun o _ => hf _) ⟨s, Finset.mem_Icc.mpr ⟨le_refl _, hse⟩⟩).ne'
      rw [g2 y N, Except.ok.injEq] at h3
      rw [← h3] at h5
      exact hp 0 h5.symm
    · rw [g3 y (N + 2)] at h3
      simp at h3
  · intro y
    refine ⟨2, fun fuel hfu => ?_⟩
    obtain ⟨d, rfl⟩ : ∃ d, fuel = d + 2 := ⟨fuel - 2, by omega⟩
    exact ⟨_, g1 y d, rfl⟩

/-- Spatiotemporal, one series per leaf: the aggregation of a partition never returns if one of its parts has a child that is not a
leaf; that of parts that are leaves gives zeros. -/
theorem dPartitionN2 (r : RightMeta leaves parents md) (h2 : 2 ≤ parents.length) (c : DValuesN2 ℝ) (O : Nat)
    (f : Nat × Nat → ℝ) (hc : c.Holds leaves O md f) (parts : List (DPart ℝ))
    (hn : ∀ p ∈ parts, p.h < parents.length ∧ p.start ≤ p.end ∧ p.end < O) :
    ((∃ p ∈ parts, HasInnerChild leaves parents p.h) → ∀ fuel, aggregation (Lp.dAggregateN2 (fuel + 2) c) parts = .error .outOfFuel) ∧
    ((∀ p ∈ parts, p.h < leaves) → ∀ fuel, aggregation (Lp.dAggregateN2 (fuel + 2) c) parts =
      .ok (parts.map (fun p => ⟨p, 0, 0⟩))) := by
  constructor
  · intro hx fuel
    apply aggregation_endless_aux
    · intro p hp
      obtain ⟨g1, g2, g3⟩ := dAggregateN2 r h2 c O f hc p.h p.hsize p.start p.end (hn p hp).2.1 (hn p hp).2.2 p.quality
      rcases cases leaves parents p.h (hn p hp).1 with y | y | y
      · left; exact ⟨_, g1 y fuel⟩
      · left; exact ⟨_, g2 y fuel⟩
      · right; exact g3 y _
    · obtain ⟨p, hp, y⟩ := hx
      exact ⟨p, hp, (dAggregateN2 r h2 c O f hc p.h p.hsize p.start p.end (hn p hp).2.1 (hn p hp).2.2 p.quality).2.2 y _⟩
  · intro hl fuel
    apply aggregation_ok
    intro p hp
    exact (dAggregateN2 r h2 c O f hc p.h p.hsize p.start p.end (hn p hp).2.1 (hn p hp).2.2 p.quality).2.1 (hl p hp) fuel

/-- Spatiotemporal, several series per leaf: for positive data the constructor returns the right sums exactly if the node is inner
and all its children are leaves. -/
theorem dRightIffN3 (r : RightMeta leaves parents md) (h2 : 2 ≤ parents.length) (c : DValuesN3 ℝ) (V O : Nat)
    (f : Nat × Nat × Nat → ℝ) (hc : c.Holds leaves V O md f) (hV : 0 < V) (hf : ∀ x, 0 < f x) (h hsize s e : Nat) (hse : s ≤ e) (he : e < O) (q : Quality ℝ)
    (hh : h < parents.length) :
    (∃ N, ∀ fuel, N ≤ fuel → ∃ a, Lp.dAggregateN3 fuel c ⟨h, hsize, s, e, q⟩ = .ok a ∧ a.sum = (table1 V fun x => intervalTotal (fun o => nodeTotal leaves parents (fun l => f (l, x, o)) h) s e)) ↔ LeafParent leaves parents h := by
  obtain ⟨g1, g2, g3⟩ := dAggregateN3 r h2 c V O f hc h hsize s e hse he q
  constructor
  · rintro ⟨N, hN⟩
    obtain ⟨a, h3, h5⟩ := hN (N + 2) (by omega)
    rcases cases leaves parents h hh with y | y | y
    · exact y
    · exfalso
      have hp : ∀ x : Nat, (fun x : Nat => intervalTotal (fun o => nodeTotal leaves parents (fun l => f (l, x, o)) h) s e) x ≠ 0 := by
        intro x
        show intervalTotal (fun o => nodeTotal leaves parents (fun l => f (l, x, o)) h) s e ≠ 0
        unfold intervalTotal nodeTotal; rw [leavesUnder_leaf r.tree y]
        simp only [Finset.sum_singleton]
        exact (Finset.sum_pos (fun o _ => hf _) ⟨s, Finset.mem_Icc.mpr ⟨le_refl _, hse⟩⟩).ne'
      rw [g2 y N, Except.ok.injEq] at h3
      rw [← h3] at h5
      exact table_ne1_aux hV hp h5
    · rw [g3 y hV (N + 2)] at h3
      simp at h3
  · intro y
    refine ⟨2, fun fuel hfu => ?_⟩
    obtain ⟨d, rfl⟩ : ∃ d, fuel = d + 2 := ⟨fuel - 2, by omega⟩
    exact ⟨_, g1 y d, rfl⟩

/-- Spatiotemporal, several series per leaf: the aggregation of a partition never returns if one of its parts has a child that is not a
leaf; that of parts that are leaves gives zeros. -/
theorem dPartitionN3 (r : RightMeta leaves parents md) (h2 : 2 ≤ parents.length) (c : DValuesN3 ℝ) (V O : Nat)
    (f : Nat × Nat × Nat → ℝ) (hc : c.Holds leaves V O md f) (hV : 0 < V) (parts : List (DPart ℝ))
    (hn : ∀ p ∈ parts, p.h < parents.length ∧ p.start ≤ p.end ∧ p.end < O) :
    ((∃ p ∈ parts, HasInnerChild leaves parents p.h) → ∀ fuel, aggregation (Lp.dAggregateN3 (fuel + 2) c) parts = .error .outOfFuel) ∧
    ((∀ p ∈ parts, p.h < leaves) → ∀ fuel, aggregation (Lp.dAggregateN3 (fuel + 2) c) parts =
      .ok (parts.map (fun p => ⟨p, (table1 V fun _ => (0 : ℝ)), (table1 V fun _ => (0 : ℝ))⟩))) := by
  constructor
  · intro hx fuel
    apply aggregation_endless_aux
    · intro p hp
      obtain ⟨g1, g2, g3⟩ := dAggregateN3 r h2 c V O f hc p.h p.hsize p.start p.end (hn p hp).2.1 (hn p hp).2.2 p.quality
      rcases cases leaves parents p.h (hn p hp).1 with y | y | y
      · left; exact ⟨_, g1 y fuel⟩
      · left; exact ⟨_, g2 y fuel⟩
      · right; exact g3 y hV _
    · obtain ⟨p, hp, y⟩ := hx
      exact ⟨p, hp, (dAggregateN3 r h2 c V O f hc p.h p.hsize p.start p.end (hn p hp).2.1 (hn p hp).2.2 p.quality).2.2 y hV _⟩
  · intro hl fuel
    apply aggregation_ok
    intro p hp
    exact (dAggregateN3 r h2 c V O f hc p.h p.hsize p.start p.end (hn p hp).2.1 (hn p hp).2.2 p.quality).2.1 (hl p hp) fuel

/-- Spatiotemporal, two-dimensional series per leaf: for positive data the constructor returns the right sums exactly if the node is inner
and all its children are leaves. -/
theorem dRightIffN4 (r : RightMeta leaves parents md) (h2 : 2 ≤ parents.length) (c : DValuesN4 ℝ) (I J O : Nat)
    (f : Nat × Nat × Nat × Nat → ℝ) (hc : c.Holds leaves I J O md f) (hI : 0 < I) (hJ : 0 < J) (hf : ∀ x, 0 < f x) (h hsize s e : Nat) (hse : s ≤ e) (he : e < O) (q : Quality ℝ)
    (hh : h < parents.length) :
    (∃ N, ∀ fuel, N ≤ fuel → ∃ a, Lp.dAggregateN4 fuel c ⟨h, hsize, s, e, q⟩ = .ok a ∧ a.sum = (table2 I J fun x => intervalTotal (fun o => nodeTotal leaves parents (fun l => f (l, x.1, x.2, o)) h) s e)) ↔ LeafParent leaves parents h := by
  obtain ⟨g1, g2, g3⟩ := dAggregateN4 r h2 c I J O f hc h hsize s e hse he q
  constructor
  · rintro ⟨N, hN⟩
    obtain ⟨a, h3, h5⟩ := hN (N + 2) (by omega)
    rcases cases leaves parents h hh with y | y | y
    · exact y
    · exfalso
      have hp : ∀ x : Nat × Nat, (fun x : Nat × Nat => intervalTotal (fun o => nodeTotal leaves parents (fun l => f (l, x.1, x.2, o)) h) s e) x ≠ 0 := by
        intro x
        show intervalTotal (fun o => nodeTotal leaves parents (fun l => f (l, x.1, x.2, o)) h) s e ≠ 0
        unfold intervalTotal nodeTotal; rw [leavesUnder_leaf r.tree y]
        simp only [Finset.sum_singleton]
        exact (Finset.sum_pos (fun o _ => hf _) ⟨s, Finset.mem_Icc.mpr ⟨le_refl _, hse⟩⟩).ne'
      rw [g2 y N, Except.ok.injEq] at h3
      rw [← h3] at h5
      exact table_ne2_aux hI hJ hp h5
    · rw [g3 y hI hJ (N + 2)] at h3
      simp at h3
  · intro y
    refine ⟨2, fun fuel hfu => ?_⟩
    obtain ⟨d, rfl⟩ : ∃ d, fuel = d + 2 := ⟨fuel - 2, by omega⟩
    exact ⟨_, g1 y d, rfl⟩

/-- Spatiotemporal, two-dimensional series per leaf: the aggregation of a partition never returns if one of its parts has a child that is not a
leaf; that of parts that are leaves gives zeros. -/
theorem dPartitionN4 (r : RightMeta leaves parents md) (h2 : 2 ≤ parents.length) (c : DValuesN4 ℝ) (I J O : Nat)
    (f : Nat × Nat × Nat × Nat → ℝ) (hc : c.Holds leaves I J O md f) (hI : 0 < I) (hJ : 0 < J) (parts : List (DPart ℝ))
    (hn : ∀ p ∈ parts, p.h < parents.length ∧ p.start ≤ p.end ∧ p.end < O) :
    ((∃ p ∈ parts, HasInnerChild leaves parents p.h) → ∀ fuel, aggregation (Lp.dAggregateN4 (fuel + 2) c) parts = .error .outOfFuel) ∧
    ((∀ p ∈ parts, p.h < leaves) → ∀ fuel, aggregation (Lp.dAggregateN4 (fuel + 2) c) parts =
      .ok (parts.map (fun p => ⟨p, (table2 I J fun _ => (0 : ℝ)), (table2 I J fun _ => (0 : ℝ))⟩))) := by
  constructor
  · intro hx fuel
    apply aggregation_endless_aux
    · intro p hp
      obtain ⟨g1, g2, g3⟩ := dAggregateN4 r h2 c I J O f hc p.h p.hsize p.start p.end (hn p hp).2.1 (hn p hp).2.2 p.quality
      rcases cases leaves parents p.h (hn p hp).1 with y | y | y
      · left; exact ⟨_, g1 y fuel⟩
      · left; exact ⟨_, g2 y fuel⟩
      · right; exact g3 y hI hJ _
    · obtain ⟨p, hp, y⟩ := hx
      exact ⟨p, hp, (dAggregateN4 r h2 c I J O f hc p.h p.hsize p.start p.end (hn p hp).2.1 (hn p hp).2.2 p.quality).2.2 y hI hJ _⟩
  · intro hl fuel
    apply aggregation_ok
    intro p hp
    exact (dAggregateN4 r h2 c I J O f hc p.h p.hsize p.start p.end (hn p hp).2.1 (hn p hp).2.2 p.quality).2.1 (hl p hp) fuel

/-! ## A concrete case: 4 leaves, two inner nodes 4 and 6, root 5 -/

theorem exTree : IsTree 4 [4, 4, 6, 6, 5, -1, 5] 5 :=
  .ofCheck (fun h => if h < 4 then 2 else if h = 5 then 0 else 1) (by decide) (by decide) (by decide) (by decide)

theorem exRight : ∃ md, mkMeta 4 [4, 4, 6, 6, 5, -1, 5] = .ok md ∧ RightMeta 4 [4, 4, 6, 6, 5, -1, 5] md := by
  obtain ⟨md, h1, _, h2⟩ := C03.balanced 4 [4, 4, 6, 6, 5, -1, 5] 5 exTree
    (.ofCheck (fun h => if h < 4 then 0 else if h = 5 then 2 else 1) (by decide) (by decide) (by decide))
  exact ⟨md, h1, h2⟩

/-- Node 4 is right, node 0 gives 0, node 5 does not return. -/
example : LeafParent 4 [4, 4, 6, 6, 5, -1, 5] 4 ∧ HasInnerChild 4 [4, 4, 6, 6, 5, -1, 5] 5 := by
  refine ⟨⟨by decide, by decide, ?_⟩, 4, by decide, by decide⟩
  intro c hc
  have := hc.lt
  simp only [List.length_cons, List.length_nil] at this
  interval_cases c <;> first | omega | (revert hc; decide)

/-! ## The hypotheses are met by concrete inputs (`Proofs/Samples.lean`) -/

theorem exInner_aux : HasInnerChild 4 Sample.tree 6 := ⟨4, by decide, by decide⟩

theorem exParent_aux : LeafParent 4 Sample.tree 4 := by
  refine ⟨by decide, by decide, fun c hc => ?_⟩
  have := hc.lt
  simp only [List.length_cons, List.length_nil] at this
  interval_cases c <;> first | omega | (revert hc; decide)

noncomputable def exH1 : HValuesN1 ℝ := ⟨1, Sample.md, table1 4 fun l => (l : ℝ) + 1⟩

theorem exH1_aux : exH1.Holds 4 Sample.md fun l => (l : ℝ) + 1 := ⟨rfl, rfl, rfl⟩

noncomputable def exH2 : HValuesN2 ℝ := ⟨2, Sample.md, table2 4 2 fun x => (x.1 : ℝ) + x.2 + 1⟩

theorem exH2_aux : exH2.Holds 4 2 Sample.md fun x => (x.1 : ℝ) + x.2 + 1 := ⟨rfl, rfl, rfl⟩

noncomputable def exD3 : DValuesN3 ℝ := ⟨2, 3, Sample.md, table3 4 2 3 fun x => (x.1 : ℝ) + x.2.1 + x.2.2 + 1⟩

theorem exD3_aux : exD3.Holds 4 2 3 Sample.md fun x => (x.1 : ℝ) + x.2.1 + x.2.2 + 1 := ⟨rfl, rfl, rfl, rfl⟩

example := (aggregateN1 Sample.right (by decide) exH1 _ exH1_aux 4 2 ⟨3, 1⟩).1 exParent_aux
example := (aggregateN1 Sample.right (by decide) exH1 _ exH1_aux 6 4 ⟨8, 7⟩).2.2 exInner_aux
example := (aggregateN2 Sample.right (by decide) exH2 2 _ exH2_aux 4 2 ⟨3, 1⟩).1 exParent_aux
example := (aggregateN2 Sample.right (by decide) exH2 2 _ exH2_aux 6 4 ⟨8, 7⟩).2.2 exInner_aux (by decide)
example := (dAggregateN3 Sample.right (by decide) exD3 2 3 _ exD3_aux 4 2 0 1 (by decide) (by decide) ⟨3, 1⟩).1 exParent_aux
example := (dAggregateN3 Sample.right (by decide) exD3 2 3 _ exD3_aux 6 4 0 1 (by decide) (by decide) ⟨3, 1⟩).2.2 exInner_aux (by decide)
example := (rightIff Sample.right (by decide) 4 2 ⟨3, 1⟩ (by decide)).2 exParent_aux
example := partitionEndless Sample.right (by decide) exH1 _ exH1_aux [⟨6, 4, ⟨8, 7⟩⟩] (by simp) ⟨_, List.mem_singleton_self _, exInner_aux⟩
example := rootEndless Sample.right (by decide) exH1 _ exH1_aux 4 ⟨8, 7⟩ (by rw [Sample.root]; exact exInner_aux)
example := leavesZero Sample.right (by decide) exH1 _ exH1_aux fun _ => ⟨0, 0⟩
example := (rightIffN2 Sample.right (by decide) exH2 2 _ exH2_aux (by decide) (fun _ => by positivity) 4 2 ⟨3, 1⟩ (by decide)).2 exParent_aux
example := (partitionN2 Sample.right (by decide) exH2 2 _ exH2_aux (by decide) [⟨6, 4, ⟨8, 7⟩⟩] (by simp)).1 ⟨_, List.mem_singleton_self _, exInner_aux⟩
example := (dRightIffN3 Sample.right (by decide) exD3 2 3 _ exD3_aux (by decide) (fun _ => by positivity) 4 2 0 1 (by decide) (by decide) ⟨3, 1⟩ (by decide)).2
  exParent_aux
example := (dPartitionN3 Sample.right (by decide) exD3 2 3 _ exD3_aux (by decide) [⟨6, 4, 0, 2, ⟨8, 7⟩⟩] (by simp)).1 ⟨_, List.mem_singleton_self _, exInner_aux⟩

end Lp.C37
