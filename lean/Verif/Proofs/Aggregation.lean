import Verif.Model.Aggregation
import Verif.Spec.Aggregate
import Verif.Spec.Tiling
import Verif.Proofs.Containers
import Verif.Proofs.Tree

/-!
# Loops of the aggregation classes
-/

namespace Lp
open Spec

theorem build_ok {α : Type} {n : Nat} {f : Nat → Res α} {g : Nat → α} (h : ∀ i, i < n → f i = .ok (g i)) :
    build n f = .ok (table1 n g) := by
  obtain ⟨l, h1, h2⟩ := forUp_inv (f := fun i l => do let x ← f i; return l ++ [x]) (lo := 0) (hi := n)
    (s := ([] : List α)) (fun k l => l = table1 k g) (Nat.zero_le _) (by simp [table1])
    (by
      intro k s _ hk hs
      refine ⟨table1 (k + 1) g, ?_, rfl⟩
      rw [h k hk, okBind, hs]
      simp [table1, List.range_succ])
  unfold build
  rw [h1, h2]

theorem build_err {α : Type} {n : Nat} {f : Nat → Res α} {e : Fault} (hn : 0 < n) (h : f 0 = .error e) :
    build n f = .error e := by
  unfold build forUp
  obtain ⟨n, rfl⟩ : ∃ m, n = m + 1 := ⟨n - 1, by omega⟩
  simp [forUpAux, h]

theorem aggregation_ok {P α : Type} {agg : P → Res α} {g : P → α} {l : List P} (h : ∀ p ∈ l, agg p = .ok (g p)) :
    aggregation agg l = .ok (l.map g) := by
  obtain ⟨s, h1, h2⟩ := forEach_inv (f := fun p l => do let a ← agg p; return l ++ [a])
    (fun pre s => s = pre.map g) l [] rfl (by
      intro pre x post s hl hs
      refine ⟨(pre ++ [x]).map g, ?_, rfl⟩
      rw [h x (by simp [hl]), okBind, hs]
      simp)
  unfold aggregation
  rw [h1, h2]

theorem sumRange_ok {f : Nat → Res ℝ} {x : Nat → ℝ} {s e : Nat} (hse : s ≤ e)
    (h : ∀ o, s ≤ o → o ≤ e → f o = .ok (x o)) : sumRange f s e = .ok (intervalTotal x s e) := by
  obtain ⟨t, h1, h2⟩ := forUp_inv (f := fun o (a : ℝ) => do let y ← f o; return a + y) (lo := s) (hi := e + 1)
    (s := (0 : ℝ)) (fun k t => t = ∑ o ∈ Finset.Ico s k, x o) (by omega) (by simp)
    (by
      intro k t hk hk' ht
      refine ⟨∑ o ∈ Finset.Ico s (k + 1), x o, ?_, rfl⟩
      rw [h k hk (by omega), okBind, ht, Finset.sum_Ico_succ_top hk]
      rfl)
  unfold sumRange
  refine h1.trans ?_
  rw [h2]
  rfl

theorem sumRange_err {f : Nat → Res ℝ} {e0 : Fault} {s e : Nat} (hse : s ≤ e) (h : f s = .error e0) :
    sumRange f s e = .error e0 := by
  unfold sumRange forUp
  obtain ⟨n, hn⟩ : ∃ m, e + 1 - s = m + 1 := ⟨e - s, by omega⟩
  rw [hn]
  simp [forUpAux, h]

theorem table1_map {α β : Type} (n : Nat) (g : Nat → α) (u : α → β) : (table1 n g).map u = table1 n fun i => u (g i) := by
  simp [table1]

/-- The totals over the intervals of a tiling add up to the total over everything. -/
theorem tiles_total {a b : Nat} {L : List (Nat × Nat)} (h : Tiles a b L) (x : Nat → ℝ) :
    (L.map (fun I => intervalTotal x I.1 I.2)).sum = ∑ o ∈ Finset.Ico a b, x o := by
  induction h with
  | nil => simp
  | @cons a b c L h1 h2 h3 ih =>
    rw [List.map_cons, List.sum_cons, ih, ← Finset.sum_Ico_consecutive x (show a ≤ c + 1 by omega) h3.le]
    rfl

theorem oAggCell_ok {f : Nat → Res ℝ} {x : Nat → ℝ} {s e : Nat} (q : Quality ℝ) (hse : s ≤ e)
    (h : ∀ o, s ≤ o → o ≤ e → f o = .ok (x o)) :
    oAggCell f ⟨s, e, q⟩ = .ok (intervalTotal x s e, intervalTotal x s e / ((e : ℝ) - s + 1)) := by
  unfold oAggCell
  simp only [toIdx_nat, okBind, sumRange_ok hse h, OPart.getSize, pureOk]
  congr 2
  show _ / (((e : Int) - s + 1 : Int) : ℝ) = _
  push_cast
  rfl

end Lp

namespace Lp
open Spec
variable {leaves : Nat} {parents : List Int} {md : HMeta}

/-- Sum of a list of values by a `for` loop. -/
theorem forEach_sum {f : Nat → Res ℝ} {x : Nat → ℝ} {l : List Nat} (h : ∀ c ∈ l, f c = .ok (x c)) :
    forEach (fun c s => do let y ← f c; return s + y) l (0 : ℝ) = .ok (l.map x).sum := by
  obtain ⟨s, h1, h2⟩ := forEach_inv (f := fun c (s : ℝ) => do let y ← f c; return s + y)
    (fun pre s => s = (pre.map x).sum) l 0 rfl (by
      intro pre c post s hl hs
      refine ⟨((pre ++ [c]).map x).sum, ?_, rfl⟩
      rw [h c (by simp [hl]), okBind, hs]
      simp)
  exact h1.trans (by rw [h2])

/-- If some call of the loop runs out of budget and all others return or run out of budget, so does the loop. -/
theorem forEach_fuel {f : Nat → Res ℝ} {l : List Nat} (h : ∀ c ∈ l, (∃ y, f c = .ok y) ∨ f c = .error .outOfFuel)
    (hx : ∃ c ∈ l, f c = .error .outOfFuel) (s : ℝ) :
    forEach (fun c s => do let y ← f c; return s + y) l s = .error .outOfFuel := by
  induction l generalizing s with
  | nil => simp at hx
  | cons c l ih =>
    rcases h c (by simp) with ⟨y, hy⟩ | hy
    · simp only [forEach, hy, okBind, pureOk]
      refine ih (fun d hd => h d (by simp [hd])) ?_ _
      obtain ⟨d, hd, hd'⟩ := hx
      rcases List.mem_cons.mp hd with rfl | hd
      · rw [hy] at hd'; simp at hd'
      · exact ⟨d, hd, hd'⟩
    · simp only [forEach, hy, errBind]

theorem subSum_leafRoot (r : RightMeta leaves parents md) (h : md.root < leaves) {f : Nat → Res ℝ} {partH fuel : Nat}  :
    subSum md partH f (fuel + 1) md.root = f md.root := by
  unfold subSum
  rw [r.leaveSize, if_pos h]

/-- All children of the part's node are leaves: right. -/
theorem subSum_ok (r : RightMeta leaves parents md) {f : Nat → Res ℝ} {x : Nat → ℝ}
    (hf : ∀ l, l < leaves → f l = .ok (x l)) {h0 partH : Nat} (hi : leaves ≤ h0) (hp : partH < parents.length)
    (hin : leaves ≤ partH) (hch : ∀ c, ParentIs parents c partH → c < leaves) (fuel : Nat) :
    subSum md partH f (fuel + 2) h0 = .ok (nodeTotal leaves parents x partH) := by
  obtain ⟨ch, h1, h2, h3⟩ := r.children partH hp
  unfold subSum
  rw [r.leaveSize, if_neg (by omega), vget_eq_ok.mpr h1, okBind]
  rw [forEach_sum (x := x)]
  · congr 1
    unfold nodeTotal
    obtain ⟨e1, e2⟩ := leavesUnder_inner r.tree hin ch.toFinset (by intro c; rw [List.mem_toFinset, h3])
    rw [e1, Finset.sum_biUnion e2, ← List.sum_toFinset x h2]
    refine Finset.sum_congr rfl ?_
    intro c hc
    rw [List.mem_toFinset, h3] at hc
    rw [leavesUnder_leaf r.tree (hch c hc), Finset.sum_singleton]
  · intro c hc
    rw [h3] at hc
    unfold subSum
    rw [r.leaveSize, if_pos (hch c hc)]
    exact hf c (hch c hc)

/-- The part's node is a leaf: 0. -/
theorem subSum_leaf (r : RightMeta leaves parents md) {f : Nat → Res ℝ} {h0 partH : Nat} (hi : leaves ≤ h0)
    (hp : partH < leaves) (fuel : Nat) : subSum md partH f (fuel + 1) h0 = .ok 0 := by
  have hp' : partH < parents.length := by have := r.tree.leavesLe; omega
  obtain ⟨ch, h1, h2, h3⟩ := r.children partH hp'
  have : ch = [] := by
    apply List.eq_nil_iff_forall_not_mem.mpr
    intro c hc
    exact (r.tree.leaf partH hp').mp hp ⟨c, (h3 c).mp hc⟩
  unfold subSum
  rw [r.leaveSize, if_neg (by omega), vget_eq_ok.mpr h1, okBind, this]
  rfl

/-- The part's node has a child that is not a leaf: no end. -/
theorem subSum_endless (r : RightMeta leaves parents md) {f : Nat → Res ℝ} {x : Nat → ℝ}
    (hf : ∀ l, l < leaves → f l = .ok (x l)) {partH c0 : Nat} (hp : partH < parents.length)
    (hc : ParentIs parents c0 partH) (hc0 : leaves ≤ c0) : ∀ (fuel h0 : Nat), leaves ≤ h0 →
    subSum md partH f fuel h0 = .error .outOfFuel := by
  obtain ⟨ch, h1, h2, h3⟩ := r.children partH hp
  intro fuel
  induction fuel with
  | zero => intro h0 _; rfl
  | succ fuel ih =>
    intro h0 hi
    unfold subSum
    rw [r.leaveSize, if_neg (by omega), vget_eq_ok.mpr h1, okBind]
    cases fuel with
    | zero =>
      cases ch with
      | nil => exact absurd ((h3 c0).mpr hc) (by simp)
      | cons c ch => rfl
    | succ fuel =>
      apply forEach_fuel
      · intro c _
        by_cases hcl : c < leaves
        · left
          unfold subSum
          rw [r.leaveSize, if_pos hcl]
          exact ⟨_, hf c hcl⟩
        · right; exact ih c (by omega)
      · exact ⟨c0, (h3 c0).mpr hc, ih c0 hc0⟩

theorem hAggCell_ok (r : RightMeta leaves parents md) {f : Nat → Res ℝ} {x : Nat → ℝ}
    (hf : ∀ l, l < leaves → f l = .ok (x l)) (hroot : leaves ≤ md.root) {h size : Nat} (q : Quality ℝ)
    (hp : h < parents.length) (hin : leaves ≤ h) (hch : ∀ c, ParentIs parents c h → c < leaves) (fuel : Nat) :
    hAggCell (fuel + 2) md f ⟨h, size, q⟩ =
      .ok (nodeTotal leaves parents x h, nodeTotal leaves parents x h / (size : ℝ)) := by
  unfold hAggCell
  rw [subSum_ok r hf hroot hp hin hch]
  simp only [okBind, pureOk]
  congr 2

theorem hAggCell_leaf (r : RightMeta leaves parents md) {f : Nat → Res ℝ} (hroot : leaves ≤ md.root) {h size : Nat}
    (q : Quality ℝ) (hp : h < leaves) (fuel : Nat) : hAggCell (fuel + 1) md f ⟨h, size, q⟩ = .ok (0, 0) := by
  unfold hAggCell
  rw [subSum_leaf r hroot hp]
  simp only [okBind, pureOk]
  congr 2
  exact zero_div (G₀ := ℝ) _ 

theorem hAggCell_endless (r : RightMeta leaves parents md) {f : Nat → Res ℝ} {x : Nat → ℝ}
    (hf : ∀ l, l < leaves → f l = .ok (x l)) (hroot : leaves ≤ md.root) {h size c0 : Nat} (q : Quality ℝ)
    (hp : h < parents.length) (hc : ParentIs parents c0 h) (hc0 : leaves ≤ c0) (fuel : Nat) :
    hAggCell fuel md f ⟨h, size, q⟩ = .error .outOfFuel := by
  unfold hAggCell
  rw [subSum_endless r hf hp hc hc0 fuel _ hroot]
  rfl

/-- Totals over a node and an interval of slices. -/
theorem dAggCell_ok (r : RightMeta leaves parents md) {n : Nat} {f : Nat → Nat → Res ℝ} {x : Nat → Nat → ℝ}
    (hf : ∀ l o, l < leaves → o < n → f l o = .ok (x l o)) (hroot : leaves ≤ md.root) {h hsize s e : Nat}
    (q : Quality ℝ) (hp : h < parents.length) (hin : leaves ≤ h) (hch : ∀ c, ParentIs parents c h → c < leaves)
    (hse : s ≤ e) (he : e < n) (fuel : Nat) :
    dAggCell (fuel + 2) md f ⟨h, hsize, s, e, q⟩ =
      .ok (intervalTotal (fun o => nodeTotal leaves parents (fun l => x l o) h) s e,
        intervalTotal (fun o => nodeTotal leaves parents (fun l => x l o) h) s e / ((hsize : ℝ) * ((e : ℝ) - s + 1))) := by
  unfold dAggCell
  simp only
  rw [sumRange_ok hse (x := fun o => nodeTotal leaves parents (fun l => x l o) h)
    (fun o _ h2 => subSum_ok r (fun l hl => hf l o hl (by omega)) hroot hp hin hch fuel)]
  simp only [okBind, pureOk, DPart.getSize]
  congr 2
  show _ / (((hsize : Int) * ((e : Int) - s + 1) : Int) : ℝ) = _
  push_cast
  rfl

theorem dAggCell_leaf (r : RightMeta leaves parents md) {f : Nat → Nat → Res ℝ} (hroot : leaves ≤ md.root)
    {h hsize s e : Nat} (q : Quality ℝ) (hp : h < leaves) (hse : s ≤ e) (fuel : Nat) :
    dAggCell (fuel + 1) md f ⟨h, hsize, s, e, q⟩ = .ok (0, 0) := by
  unfold dAggCell
  simp only
  rw [sumRange_ok hse (x := fun _ => 0) (fun o _ h2 => subSum_leaf r hroot hp fuel)]
  have : intervalTotal (fun _ => 0) s e = 0 := by simp [intervalTotal]
  rw [this]
  simp only [okBind, pureOk]
  congr 2
  exact zero_div (G₀ := ℝ) _

theorem dAggCell_endless (r : RightMeta leaves parents md) {n : Nat} {f : Nat → Nat → Res ℝ} {x : Nat → Nat → ℝ}
    (hf : ∀ l o, l < leaves → o < n → f l o = .ok (x l o)) (hroot : leaves ≤ md.root) {h hsize s e c0 : Nat}
    (q : Quality ℝ) (hp : h < parents.length) (hc : ParentIs parents c0 h) (hc0 : leaves ≤ c0)
    (hse : s ≤ e) (he : e < n) (fuel : Nat) :
    dAggCell fuel md f ⟨h, hsize, s, e, q⟩ = .error .outOfFuel := by
  unfold dAggCell
  simp only
  rw [sumRange_err (f := fun o => subSum md h (fun h => f h o) fuel md.root) hse
    (subSum_endless r (fun l hl => hf l s hl (by omega)) hp hc hc0 fuel md.root hroot)]
  rfl

/-- In a hierarchy with at least two nodes the root is not a leaf. -/
theorem root_inner (t : IsTree leaves parents root) (h : 2 ≤ parents.length) : leaves ≤ root := by
  by_contra hlt
  obtain ⟨h0, hne, hl⟩ : ∃ h0, h0 ≠ root ∧ h0 < parents.length := by
    by_cases h0 : root = 0
    · exact ⟨1, by omega, by omega⟩
    · exact ⟨0, by omega, by omega⟩
  rcases under_iff.mp (t.reach h0 hl) with e | ⟨c, hc, _⟩
  · exact hne e
  · exact (t.leaf root t.rootLt).mp (by omega) ⟨c, hc⟩

end Lp
