import Verif.Spec.Slicing
import Verif.Proofs.Group
import Mathlib.Algebra.Order.Group.Basic
import Mathlib.Algebra.BigOperators.Group.List.Basic
import Mathlib.Algebra.Order.BigOperators.Group.List
import Mathlib.Tactic.Linarith
import Mathlib.Tactic.FieldSimp
import Mathlib.Tactic.Ring

/-!
# `slicerstate` computes the shares of the time slices
-/

namespace Lp
open Spec
variable {S Y K : Type} [DecidableEq S] [DecidableEq Y] [Field K] [LinearOrder K] [IsStrictOrderedRing K]

theorem foldl_min_le (l : List K) (x : K) : l.foldl min x ≤ x ∧ ∀ y ∈ l, l.foldl min x ≤ y := by
  induction l generalizing x with
  | nil => simp
  | cons a l ih =>
    obtain ⟨h1, h2⟩ := ih (min x a)
    rw [List.foldl_cons]
    refine ⟨h1.trans (min_le_left _ _), ?_⟩
    intro y hy
    rcases List.mem_cons.mp hy with rfl | hy
    · exact h1.trans (min_le_right _ _)
    · exact h2 y hy

theorem foldl_min_mem (l : List K) (x : K) : l.foldl min x = x ∨ l.foldl min x ∈ l := by
  induction l generalizing x with
  | nil => simp
  | cons a l ih =>
    rw [List.foldl_cons]
    rcases ih (min x a) with h | h
    · rcases min_choice x a with e | e
      · left; rw [h, e]
      · right; rw [h, e]; exact List.mem_cons_self
    · exact .inr (List.mem_cons_of_mem _ h)

theorem rMin_eq {l : List K} {a : K} (h1 : a ∈ l) (h2 : ∀ x ∈ l, a ≤ x) : rMin l = a := by
  cases l with
  | nil => simp at h1
  | cons x l =>
    show l.foldl min x = a
    apply le_antisymm
    · rcases List.mem_cons.mp h1 with rfl | h1
      · exact (foldl_min_le l _).1
      · exact (foldl_min_le l x).2 a h1
    · rcases foldl_min_mem l x with h | h
      · rw [h]; exact h2 x List.mem_cons_self
      · exact h2 _ (List.mem_cons_of_mem _ h)

theorem foldl_max_ge {α : Type} [LinearOrder α] (l : List α) (x : α) : x ≤ l.foldl max x ∧ ∀ y ∈ l, y ≤ l.foldl max x := by
  induction l generalizing x with
  | nil => simp
  | cons a l ih =>
    obtain ⟨h1, h2⟩ := ih (max x a)
    rw [List.foldl_cons]
    refine ⟨(le_max_left _ _).trans h1, ?_⟩
    intro y hy
    rcases List.mem_cons.mp hy with rfl | hy
    · exact (le_max_right _ _).trans h1
    · exact h2 y hy

theorem foldl_max_mem {α : Type} [LinearOrder α] (l : List α) (x : α) : l.foldl max x = x ∨ l.foldl max x ∈ l := by
  induction l generalizing x with
  | nil => simp
  | cons a l ih =>
    rw [List.foldl_cons]
    rcases ih (max x a) with h | h
    · rcases max_choice x a with e | e
      · left; rw [h, e]
      · right; rw [h, e]; exact List.mem_cons_self
    · exact .inr (List.mem_cons_of_mem _ h)

theorem rMax_eq {l : List K} {a : K} (h1 : a ∈ l) (h2 : ∀ x ∈ l, x ≤ a) : rMax l = a := by
  cases l with
  | nil => simp at h1
  | cons x l =>
    show l.foldl max x = a
    apply le_antisymm
    · rcases foldl_max_mem l x with h | h
      · rw [h]; exact h2 x List.mem_cons_self
      · exact h2 _ (List.mem_cons_of_mem _ h)
    · rcases List.mem_cons.mp h1 with rfl | h1
      · exact (foldl_max_ge l _).1
      · exact (foldl_max_ge l x).2 a h1

omit [LinearOrder K] [IsStrictOrderedRing K] in
theorem sum_filter_ite {A : Type} (d : List A) (c : A → Bool) (g : A → K) :
    ((d.filter c).map g).sum = (d.map (fun r => if c r = true then g r else 0)).sum := by
  induction d with
  | nil => rfl
  | cons r d ih =>
    rw [List.filter_cons, List.map_cons, List.sum_cons]
    by_cases e : c r = true
    · rw [if_pos e, if_pos e, List.map_cons, List.sum_cons, ih]
    · rw [if_neg e, if_neg e, zero_add, ih]

omit [LinearOrder K] [IsStrictOrderedRing K] in
theorem sum_flatMap_map {A B : Type} (d : List A) (e : A → List B) (g : B → K) :
    ((d.flatMap e).map g).sum = (d.map (fun r => ((e r).map g).sum)).sum := by
  induction d with
  | nil => rfl
  | cons r d ih => rw [List.flatMap_cons, List.map_append, List.sum_append, ih, List.map_cons, List.sum_cons]

section
variable (trace : List (TState S Y K)) (n : Nat)

omit [IsStrictOrderedRing K] in
theorem slicerstate_steps :
    slicerstate trace n =
      filled (summed (rMax ((shiftTrace trace (rMin (trace.map (fun r => r.start)))).map (fun r => r.end)))
        (timed (joined (rMax ((shiftTrace trace (rMin (trace.map (fun r => r.start)))).map (fun r => r.end)))
          (shiftTrace trace (rMin (trace.map (fun r => r.start)))) n))) := rfl

end

section
variable {trace : List (TState S Y K)} {first total : K} {n : Nat}

/-- Durations are right and not negative. -/
structure Measured (trace : List (TState S Y K)) (total : K) : Prop where
  duration : ∀ r ∈ trace, r.duration = r.end - r.start
  order : ∀ r ∈ trace, r.start ≤ r.end
  pos : 0 < total

omit [IsStrictOrderedRing K] in
theorem Spec.RightTrace.measured (ht : RightTrace trace first total) : Measured trace total := ⟨ht.duration, ht.order, ht.pos⟩

theorem mem_slicesOf {maxts : K} {s : Slice K} : s ∈ slicesOf maxts n ↔
    ∃ k, k < n ∧ s = ⟨k + 1, (k : K) * (maxts / (n : K)), ((k : K) + 1) * (maxts / (n : K))⟩ := by
  unfold slicesOf
  simp only [List.mem_map, List.mem_range]
  constructor
  · rintro ⟨k, hk, rfl⟩; exact ⟨k, hk, rfl⟩
  · rintro ⟨k, hk, rfl⟩; exact ⟨k, hk, rfl⟩

/-- Slice `k` as in the table. -/
def sl (total : K) (n k : Nat) : Slice K := ⟨k + 1, (k : K) * (total / (n : K)), ((k : K) + 1) * (total / (n : K))⟩

/-- A state counted from the beginning of the trace. -/
def sh (first : K) (r : TState S Y K) : TState S Y K := { r with start := r.start - first, «end» := r.end - first }

theorem mem_joined (ht : Measured trace total) {x : TState S Y K × Slice K} :
    x ∈ joined total (shiftTrace trace first) n ↔ ∃ r ∈ trace, ∃ k, Touches first total n r k ∧ x = (sh first r, sl total n k) := by
  unfold joined shiftTrace Touches sliceAt
  simp only [List.mem_flatMap, List.mem_map, List.mem_filter, mem_slicesOf, decide_eq_true_eq]
  constructor
  · rintro ⟨_, ⟨r, hr, rfl⟩, _, ⟨⟨k, hk, rfl⟩, h1, h2⟩, rfl⟩
    have hd := ht.duration r hr
    simp only at h1 h2
    refine ⟨r, hr, k, ⟨hk, by rw [hd] at h1; linarith, ?_⟩, rfl⟩
    rw [hd] at h2
    push_cast
    linarith
  · rintro ⟨r, hr, k, ⟨hk, h1, h2⟩, rfl⟩
    have hd := ht.duration r hr
    refine ⟨_, ⟨r, hr, rfl⟩, _, ⟨⟨k, hk, rfl⟩, ?_, ?_⟩, rfl⟩
    · simp only; rw [hd]; linarith
    · simp only; rw [hd]; push_cast at h2; linarith

/-- Moving the origin. -/
theorem overlap_shift (f a b c d : K) : overlap (a - f) (b - f) c d = overlap a b (f + c) (f + d) := by
  unfold overlap
  congr 1
  have h1 : min (b - f) d = min b (f + d) - f := by
    rcases le_total b (f + d) with h | h
    · rw [min_eq_left h, min_eq_left (by linarith)]
    · rw [min_eq_right h, min_eq_right (by linarith)]; ring
  have h2 : max (a - f) c = max a (f + c) - f := by
    rcases le_total a (f + c) with h | h
    · rw [max_eq_right h, max_eq_right (by linarith)]; ring
    · rw [max_eq_left h, max_eq_left (by linarith)]
  rw [h1, h2]
  ring

/-- The time of a joined row is the overlap. -/
theorem timed_joined (ht : Measured trace total) :
    timed (joined total (shiftTrace trace first) n) = (joined total (shiftTrace trace first) n).map (fun x =>
      (x, overlap x.1.start x.1.end x.2.tsStart x.2.tsEnd)) := by
  unfold timed
  apply List.map_congr_left
  intro x hxj
  simp only [Prod.mk.injEq, true_and]
  obtain ⟨r, hr, k, hk, rfl⟩ := (mem_joined ht).mp hxj
  have hx : (sh first r, sl total n k) ∈ (joined total (shiftTrace trace first) n).filter
      (fun y => decide (key1 y = key1 (sh first r, sl total n k))) := List.mem_filter.mpr ⟨hxj, by simp⟩
  have hg : ∀ y ∈ (joined total (shiftTrace trace first) n).filter (fun y => decide (key1 y = key1 (sh first r, sl total n k))),
      y.1.end = r.end - first ∧ y.1.start = r.start - first ∧ y.2 = sl total n k := by
    intro y hy
    obtain ⟨hy, hkey⟩ := List.mem_filter.mp hy
    rw [decide_eq_true_eq] at hkey
    obtain ⟨r', hr', k', hk', rfl⟩ := (mem_joined ht).mp hy
    simp only [key1, Prod.mk.injEq, sl, sh] at hkey
    obtain ⟨_, e1, e2, e3, _⟩ := hkey
    obtain rfl : k' = k := by omega
    exact ⟨e2, e1, rfl⟩
  generalize (joined total (shiftTrace trace first) n).filter (fun y => decide (key1 y = key1 (sh first r, sl total n k))) = g at hx hg
  have h1 : rMin (g.map (fun y => y.1.end) ++ g.map (fun y => y.2.tsEnd)) = min (r.end - first) (sl total n k).tsEnd := by
    apply rMin_eq
    · rcases min_choice (r.end - first) (sl total n k).tsEnd with e | e
      · rw [e]; exact List.mem_append_left _ (List.mem_map.mpr ⟨_, hx, rfl⟩)
      · rw [e]; exact List.mem_append_right _ (List.mem_map.mpr ⟨_, hx, rfl⟩)
    · intro z hz
      rcases List.mem_append.mp hz with hz | hz
      · obtain ⟨y, hy, rfl⟩ := List.mem_map.mp hz
        rw [(hg y hy).1]; exact min_le_left _ _
      · obtain ⟨y, hy, rfl⟩ := List.mem_map.mp hz
        rw [(hg y hy).2.2]; exact min_le_right _ _
  have h2 : rMax (g.map (fun y => y.1.start) ++ g.map (fun y => y.2.tsStart)) = max (r.start - first) (sl total n k).tsStart := by
    apply rMax_eq
    · rcases max_choice (r.start - first) (sl total n k).tsStart with e | e
      · rw [e]; exact List.mem_append_left _ (List.mem_map.mpr ⟨_, hx, rfl⟩)
      · rw [e]; exact List.mem_append_right _ (List.mem_map.mpr ⟨_, hx, rfl⟩)
    · intro z hz
      rcases List.mem_append.mp hz with hz | hz
      · obtain ⟨y, hy, rfl⟩ := List.mem_map.mp hz
        rw [(hg y hy).2.1]; exact le_max_left _ _
      · obtain ⟨y, hy, rfl⟩ := List.mem_map.mp hz
        rw [(hg y hy).2.2]; exact le_max_right _ _
  rw [h1, h2]
  obtain ⟨hkn, t1, t2⟩ := hk
  have ho := ht.order r hr
  have hn : (0 : K) < total / (n : K) := div_pos ht.pos (by exact_mod_cast (by omega : 0 < n))
  unfold sliceAt at t1 t2
  push_cast at t2
  unfold overlap
  symm
  apply max_eq_right
  simp only [sl, sh]
  rw [sub_nonneg]
  apply max_le <;> apply le_min <;> linarith

/-- No overlap without touching. -/
theorem overlap_zero {a b c d : K} (h : ¬ (c < b ∧ a < d)) : overlap a b c d = 0 := by
  unfold overlap
  apply max_eq_left
  rw [sub_nonpos]
  by_cases h1 : c < b
  · have : d ≤ a := not_lt.mp (fun h2 => h ⟨h1, h2⟩)
    exact (min_le_right _ _).trans (this.trans (le_max_left _ _))
  · exact (min_le_left _ _).trans ((not_lt.mp h1).trans (le_max_right _ _))

theorem overlap_nonneg (a b c d : K) : 0 ≤ overlap a b c d := le_max_left _ _

theorem timeIn_nonneg (s : S) (y : Y) (k : Nat) : 0 ≤ timeIn trace first total n s y k := by
  unfold timeIn
  apply List.sum_nonneg
  intro x hx
  obtain ⟨r, _, rfl⟩ := List.mem_map.mp hx
  exact overlap_nonneg _ _ _ _

theorem timed_eq (ht : Measured trace total) :
    timed (joined total (shiftTrace trace first) n) = trace.flatMap (fun r => ((List.range n).filter (fun k =>
      sliceAt first total n k < r.end ∧ r.start < sliceAt first total n (k + 1))).map (fun k =>
        ((sh first r, sl total n k), overlap r.start r.end (sliceAt first total n k) (sliceAt first total n (k + 1))))) := by
  rw [timed_joined ht]
  unfold joined shiftTrace
  rw [List.flatMap_map, List.map_flatMap]
  apply List.flatMap_congr
  intro r hr
  have hd := ht.duration r hr
  unfold slicesOf
  simp only [List.filter_map, List.map_map]
  have : (List.range n).filter ((fun s : Slice K => decide (s.tsStart < r.start - first + r.duration ∧ r.end - first - r.duration < s.tsEnd)) ∘
      fun i : Nat => ⟨i + 1, (i : K) * (total / (n : K)), ((i : K) + 1) * (total / (n : K))⟩) =
      (List.range n).filter (fun k => decide (sliceAt first total n k < r.end ∧ r.start < sliceAt first total n (k + 1))) := by
    apply List.filter_congr
    intro k _
    simp only [Function.comp, decide_eq_decide]
    unfold sliceAt
    rw [hd]
    push_cast
    constructor
    · rintro ⟨a, b⟩; constructor <;> linarith
    · rintro ⟨a, b⟩; constructor <;> linarith
  rw [this]
  apply List.map_congr_left
  intro k _
  simp only [Function.comp, Prod.mk.injEq]
  refine ⟨⟨rfl, rfl⟩, ?_⟩
  rw [overlap_shift]
  unfold sliceAt
  push_cast
  rfl

/-- Sums over the joined rows of a slice. -/
theorem timed_sum_gen (ht : Measured trace total) {k : Nat} (hk : k < n) (c : TState S Y K → Bool) (g : TState S Y K → K → K)
    (hg : ∀ r, g r 0 = 0) (cond : (TState S Y K × Slice K) × K → Bool)
    (hcond : ∀ r k' v, cond ((sh first r, sl total n k'), v) = true ↔ k' = k ∧ c r = true) :
    (((timed (joined total (shiftTrace trace first) n)).filter cond).map (fun x => g x.1.1 x.2)).sum =
      ((trace.filter c).map (fun r => g (sh first r)
        (overlap r.start r.end (sliceAt first total n k) (sliceAt first total n (k + 1))))).sum := by
  rw [sum_filter_ite, timed_eq ht, sum_flatMap_map, sum_filter_ite]
  congr 1
  apply List.map_congr_left
  intro r hr
  rw [List.map_map]
  simp only [Function.comp_def, hcond]
  rw [sum_filter_ite]
  by_cases hc : c r = true
  · simp only [hc, and_true, if_true, decide_eq_true_eq]
    have : ∀ m, ((List.range m).map (fun k' => if sliceAt first total n k' < r.end ∧ r.start < sliceAt first total n (k' + 1) then
        if k' = k then g (sh first r) (overlap r.start r.end (sliceAt first total n k') (sliceAt first total n (k' + 1))) else 0 else 0)).sum =
        if k < m then g (sh first r) (overlap r.start r.end (sliceAt first total n k) (sliceAt first total n (k + 1))) else 0 := by
      intro m
      induction m with
      | zero => simp
      | succ m ih =>
        rw [List.range_succ, List.map_append, List.sum_append, ih, List.map_singleton, List.sum_singleton]
        by_cases e : m = k
        · subst e
          rw [if_neg (Nat.lt_irrefl m), if_pos (Nat.lt_succ_self m), zero_add, if_pos rfl]
          split
          · rfl
          · rename_i hn
            rw [overlap_zero hn, hg]
        · rw [if_neg e, ite_self, add_zero]
          by_cases h' : k < m
          · rw [if_pos h', if_pos (by omega)]
          · rw [if_neg h', if_neg (by omega)]
    rw [this, if_pos hk]
  · rw [if_neg hc]
    apply List.sum_eq_zero
    intro x hx
    obtain ⟨k', _, rfl⟩ := List.mem_map.mp hx
    split_ifs with a b
    · exact absurd b.2 hc
    · rfl
    · rfl

/-- The sums: `timeIn`. -/
theorem timed_sum (ht : Measured trace total) {s : S} {y : Y} {k : Nat} (hk : k < n) :
    (((timed (joined total (shiftTrace trace first) n)).filter (fun x =>
      key2 x = (s, (sl total n k).id, y, (sl total n k).tsStart, (sl total n k).tsEnd))).map Prod.snd).sum =
      timeIn trace first total n s y k := by
  unfold timeIn
  apply timed_sum_gen (first := first) ht hk (fun r => r.resource = s ∧ r.value = y) (fun _ v => v) (fun _ => rfl)
  intro r k' v
  simp only [decide_eq_true_eq, key2, Prod.mk.injEq]
  constructor
  · rintro ⟨a, b, c, _⟩
    exact ⟨by simpa [sl] using b, a, c⟩
  · rintro ⟨rfl, a, c⟩
    exact ⟨a, rfl, c, rfl, rfl⟩

theorem mem_timed (ht : Measured trace total) {x : (TState S Y K × Slice K) × K}
    (hx : x ∈ timed (joined total (shiftTrace trace first) n)) : ∃ r ∈ trace, ∃ k, Touches first total n r k ∧
      x.1 = (sh first r, sl total n k) := by
  rw [timed_joined ht] at hx
  obtain ⟨y, hy, rfl⟩ := List.mem_map.mp hx
  exact (mem_joined ht).mp hy

theorem timed_mem (ht : Measured trace total) {r : TState S Y K} (hr : r ∈ trace) {k : Nat} (hk : Touches first total n r k) :
    ∃ v, ((sh first r, sl total n k), v) ∈ timed (joined total (shiftTrace trace first) n) := by
  rw [timed_joined ht]
  exact ⟨_, List.mem_map.mpr ⟨_, (mem_joined ht).mpr ⟨r, hr, k, hk, rfl⟩, rfl⟩⟩

/-- The rows of `m`. -/
theorem mem_summed (ht : Measured trace total) {e : SliceRow S Y K} :
    e ∈ summed total (timed (joined total (shiftTrace trace first) n)) ↔
      ∃ r ∈ trace, ∃ k, Touches first total n r k ∧ e = ⟨r.resource, k + 1, r.value, (sl total n k).tsStart, (sl total n k).tsEnd,
        timeIn trace first total n r.resource r.value k, timeIn trace first total n r.resource r.value k / total⟩ := by
  unfold summed
  rw [List.mem_map]
  constructor
  · rintro ⟨g, hg, rfl⟩
    obtain ⟨⟨x, hx, hk⟩, h2⟩ := mem_groupRows.mp hg
    obtain ⟨r, hr, k, htch, hx1⟩ := mem_timed ht hx
    have hg1 : g.1 = (r.resource, (sl total n k).id, r.value, (sl total n k).tsStart, (sl total n k).tsEnd) := by
      rw [← hk]; unfold key2; rw [hx1]; rfl
    refine ⟨r, hr, k, htch, ?_⟩
    simp only
    rw [h2, hg1, timed_sum ht htch.1]
    rfl
  · rintro ⟨r, hr, k, htch, rfl⟩
    obtain ⟨v, hv⟩ := timed_mem ht hr htch
    refine ⟨(key2 ((sh first r, sl total n k), v), (timed (joined total (shiftTrace trace first) n)).filter
      (fun x => key2 x = key2 ((sh first r, sl total n k), v))), mem_groupRows.mpr ⟨⟨_, hv, rfl⟩, rfl⟩, ?_⟩
    have hs := timed_sum (first := first) ht htch.1 (s := r.resource) (y := r.value)
    have e : key2 ((sh first r, sl total n k), v) = (r.resource, (sl total n k).id, r.value, (sl total n k).tsStart, (sl total n k).tsEnd) := rfl
    rw [e]
    simp only
    rw [hs]
    rfl

theorem mem_gridOf {m : List (SliceRow S Y K)} {e : SliceRow S Y K} : e ∈ gridOf m ↔
    ∃ s k y, (∃ r ∈ m, r.resource = s) ∧ k < lastOf m ∧ (∃ r ∈ m, r.type = y) ∧ e = ⟨s, k + 1, y, 0, 0, 0, 0⟩ := by
  unfold gridOf
  simp only [List.mem_flatMap, List.mem_map, List.mem_dedup, List.mem_range]
  constructor
  · rintro ⟨s, h1, k, h2, y, h3, rfl⟩; exact ⟨s, k, y, h1, h2, h3, rfl⟩
  · rintro ⟨s, k, y, h1, h2, h3, rfl⟩; exact ⟨s, h1, k, h2, y, h3, rfl⟩

theorem lastOf_le {m : List (SliceRow S Y K)} {e : SliceRow S Y K} (he : e ∈ m) : e.slice ≤ lastOf m :=
  (foldl_max_ge _ 0).2 _ (List.mem_map_of_mem he)

/-- The rows of the result, from those of `m`. -/
theorem filled_spec {m : List (SliceRow S Y K)} (V W : S → Nat → Y → K)
    (hm : ∀ e ∈ m, 1 ≤ e.slice ∧ e.sum = V e.resource e.slice e.type ∧ e.normalized = W e.resource e.slice e.type)
    (h0 : ∀ s k y, 1 ≤ k → k ≤ lastOf m → (∀ e ∈ m, key3 e ≠ (s, k, y)) → V s k y = 0 ∧ W s k y = 0) :
    ((filled m).map (fun r => (r.resource, r.slice, r.type))).Nodup ∧
    ∀ s k y v w, (∃ e ∈ filled m, e.resource = s ∧ e.slice = k ∧ e.type = y ∧ e.sum = v ∧ e.normalized = w) ↔
        (∃ r ∈ m, r.resource = s) ∧ (∃ r ∈ m, r.type = y) ∧
        1 ≤ k ∧ k ≤ lastOf m ∧ v = max 0 (V s k y) ∧ w = max 0 (W s k y) := by
  constructor
  · unfold filled
    rw [List.map_map]
    exact groupRows_nodup key3 _
  · have hgrp : ∀ s k y, ∀ e ∈ (gridOf m ++ m).filter (fun e => key3 e = (s, k, y)), (e.sum = 0 ∧ e.normalized = 0) ∨
        (e.sum = V s k y ∧ e.normalized = W s k y) := by
      intro s k y e hef
      obtain ⟨he, hk⟩ := List.mem_filter.mp hef
      rw [decide_eq_true_eq] at hk
      rcases List.mem_append.mp he with he' | he'
      · obtain ⟨_, _, _, _, _, _, rfl⟩ := mem_gridOf.mp he'
        exact .inl ⟨rfl, rfl⟩
      · simp only [key3, Prod.mk.injEq] at hk
        obtain ⟨rfl, rfl, rfl⟩ := hk
        exact .inr (hm e he').2
    have hval : ∀ s k y, (∃ r ∈ m, r.resource = s) → (∃ r ∈ m, r.type = y) → 1 ≤ k → k ≤ lastOf m →
        rMax (((gridOf m ++ m).filter (fun e => key3 e = (s, k, y))).map (fun e => e.sum)) = max 0 (V s k y) ∧
        rMax (((gridOf m ++ m).filter (fun e => key3 e = (s, k, y))).map (fun e => e.normalized)) = max 0 (W s k y) := by
      intro s k y hs hy h1 h2
      have hzero : (⟨s, k - 1 + 1, y, 0, 0, 0, 0⟩ : SliceRow S Y K) ∈ (gridOf m ++ m).filter (fun e => key3 e = (s, k, y)) := by
        refine List.mem_filter.mpr ⟨List.mem_append_left _ (mem_gridOf.mpr ⟨s, k - 1, y, hs, by omega, hy, rfl⟩), ?_⟩
        simp only [key3, decide_eq_true_eq, Prod.mk.injEq, true_and, and_true]
        omega
      have hex : ∃ e ∈ (gridOf m ++ m).filter (fun e => key3 e = (s, k, y)), e.sum = V s k y ∧ e.normalized = W s k y := by
        by_cases hrow : ∃ e ∈ m, key3 e = (s, k, y)
        · obtain ⟨e, he, hk⟩ := hrow
          refine ⟨e, List.mem_filter.mpr ⟨List.mem_append_right _ he, by rw [decide_eq_true_eq]; exact hk⟩, ?_⟩
          simp only [key3, Prod.mk.injEq] at hk
          obtain ⟨rfl, rfl, rfl⟩ := hk
          exact (hm e he).2
        · obtain ⟨v0, w0⟩ := h0 s k y h1 h2 (fun e he hk => hrow ⟨e, he, hk⟩)
          exact ⟨_, hzero, v0.symm, w0.symm⟩
      obtain ⟨e, he, v1, v2⟩ := hex
      constructor
      · apply rMax_eq
        · rcases max_choice 0 (V s k y) with h | h
          · rw [h]; exact List.mem_map.mpr ⟨_, hzero, rfl⟩
          · rw [h]; exact List.mem_map.mpr ⟨e, he, v1⟩
        · intro x hx
          obtain ⟨e', he', rfl⟩ := List.mem_map.mp hx
          rcases hgrp s k y e' he' with h | h
          · rw [h.1]; exact le_max_left _ _
          · rw [h.1]; exact le_max_right _ _
      · apply rMax_eq
        · rcases max_choice 0 (W s k y) with h | h
          · rw [h]; exact List.mem_map.mpr ⟨_, hzero, rfl⟩
          · rw [h]; exact List.mem_map.mpr ⟨e, he, v2⟩
        · intro x hx
          obtain ⟨e', he', rfl⟩ := List.mem_map.mp hx
          rcases hgrp s k y e' he' with h | h
          · rw [h.2]; exact le_max_left _ _
          · rw [h.2]; exact le_max_right _ _
    intro s k y v w
    unfold filled
    constructor
    · rintro ⟨_, he, rfl, rfl, rfl, rfl, rfl⟩
      obtain ⟨g, hg, rfl⟩ := List.mem_map.mp he
      obtain ⟨⟨e, hem, hk⟩, h2⟩ := mem_groupRows.mp hg
      obtain ⟨⟨s, k, y⟩, g2⟩ := g
      simp only at hk h2 ⊢
      have : (∃ r ∈ m, r.resource = s) ∧ (∃ r ∈ m, r.type = y) ∧ 1 ≤ k ∧ k ≤ lastOf m := by
        rcases List.mem_append.mp hem with hx | hx
        · obtain ⟨s', k', y', a, b, c, rfl⟩ := mem_gridOf.mp hx
          simp only [key3, Prod.mk.injEq] at hk
          obtain ⟨rfl, rfl, rfl⟩ := hk
          exact ⟨a, c, by omega, by omega⟩
        · have hle := lastOf_le hx
          simp only [key3, Prod.mk.injEq] at hk
          obtain ⟨rfl, rfl, rfl⟩ := hk
          exact ⟨⟨e, hx, rfl⟩, ⟨e, hx, rfl⟩, (hm e hx).1, hle⟩
      obtain ⟨a, b, c, d⟩ := this
      obtain ⟨v1, v2⟩ := hval s k y a b c d
      rw [h2]
      exact ⟨a, b, c, d, v1, v2⟩
    · rintro ⟨a, b, c, d, rfl, rfl⟩
      obtain ⟨v1, v2⟩ := hval s k y a b c d
      refine ⟨_, List.mem_map.mpr ⟨((s, k, y), (gridOf m ++ m).filter (fun e => key3 e = (s, k, y))), mem_groupRows.mpr ⟨?_, rfl⟩, rfl⟩,
        rfl, rfl, rfl, v1, v2⟩
      refine ⟨⟨s, k - 1 + 1, y, 0, 0, 0, 0⟩, List.mem_append_left _ (mem_gridOf.mpr ⟨s, k - 1, y, a, by omega, b, rfl⟩), ?_⟩
      simp only [key3, Prod.mk.injEq, true_and, and_true]
      omega

/-- The result. -/
theorem slicerstate_spec (ht : RightTrace trace first total) :
    ∃ last, last ≤ n ∧ (∀ r ∈ trace, ∀ k, Touches first total n r k → k < last) ∧
      (last = 0 ∨ ∃ r ∈ trace, Touches first total n r (last - 1)) ∧
      ((slicerstate trace n).map (fun r => (r.resource, r.slice, r.type))).Nodup ∧
      ∀ s k y v w, (∃ e ∈ slicerstate trace n, e.resource = s ∧ e.slice = k ∧ e.type = y ∧ e.sum = v ∧ e.normalized = w) ↔
        (∃ r ∈ trace, r.resource = s ∧ ∃ k, Touches first total n r k) ∧ (∃ r ∈ trace, r.value = y ∧ ∃ k, Touches first total n r k) ∧
        1 ≤ k ∧ k ≤ last ∧ v = timeIn trace first total n s y (k - 1) ∧ w = timeIn trace first total n s y (k - 1) / total := by
  have e1 : rMin (trace.map (fun r => r.start)) = first := by
    apply rMin_eq
    · obtain ⟨r, hr, e⟩ := ht.firstEx
      exact List.mem_map.mpr ⟨r, hr, e⟩
    · intro x hx
      obtain ⟨r, hr, rfl⟩ := List.mem_map.mp hx
      exact ht.firstLe r hr
  have e2 : rMax ((shiftTrace trace first).map (fun r => r.end)) = total := by
    unfold shiftTrace
    rw [List.map_map]
    apply rMax_eq
    · obtain ⟨r, hr, e⟩ := ht.lastEx
      exact List.mem_map.mpr ⟨r, hr, by simp only [Function.comp]; rw [e]; ring⟩
    · intro x hx
      obtain ⟨r, hr, rfl⟩ := List.mem_map.mp hx
      have := ht.lastLe r hr
      simp only [Function.comp]
      linarith
  rw [slicerstate_steps, e1, e2]
  have hm := fun e => mem_summed (first := first) (n := n) ht.measured (e := e)
  generalize summed total (timed (joined total (shiftTrace trace first) n)) = m at hm
  have hres : ∀ s, (∃ r ∈ m, r.resource = s) ↔ ∃ r ∈ trace, r.resource = s ∧ ∃ k, Touches first total n r k := by
    intro s
    constructor
    · rintro ⟨e, he, rfl⟩
      obtain ⟨r, hr, k, hk, rfl⟩ := (hm e).mp he
      exact ⟨r, hr, rfl, k, hk⟩
    · rintro ⟨r, hr, rfl, k, hk⟩
      exact ⟨_, (hm _).mpr ⟨r, hr, k, hk, rfl⟩, rfl⟩
  have htyp : ∀ y, (∃ r ∈ m, r.type = y) ↔ ∃ r ∈ trace, r.value = y ∧ ∃ k, Touches first total n r k := by
    intro s
    constructor
    · rintro ⟨e, he, rfl⟩
      obtain ⟨r, hr, k, hk, rfl⟩ := (hm e).mp he
      exact ⟨r, hr, rfl, k, hk⟩
    · rintro ⟨r, hr, rfl, k, hk⟩
      exact ⟨_, (hm _).mpr ⟨r, hr, k, hk, rfl⟩, rfl⟩
  have hlast : ∀ r ∈ trace, ∀ k, Touches first total n r k → k < lastOf m := by
    intro r hr k hk
    exact lastOf_le ((hm _).mpr ⟨r, hr, k, hk, rfl⟩)
  have hlast2 : lastOf m = 0 ∨ ∃ r ∈ trace, Touches first total n r (lastOf m - 1) := by
    rcases foldl_max_mem (m.map (fun r => r.slice)) 0 with h | h
    · exact .inl h
    · right
      obtain ⟨e, he, h⟩ := List.mem_map.mp h
      obtain ⟨r, hr, k, hk, rfl⟩ := (hm e).mp he
      refine ⟨r, hr, ?_⟩
      have : lastOf m - 1 = k := by
        have h : k + 1 = lastOf m := h
        omega
      rw [this]; exact hk
  have hfill := filled_spec (m := m) (fun s k y => timeIn trace first total n s y (k - 1))
    (fun s k y => timeIn trace first total n s y (k - 1) / total) (by
      intro e he
      obtain ⟨r, hr, k, hk, rfl⟩ := (hm e).mp he
      exact ⟨by simp, rfl, rfl⟩) (by
      intro s k y h1 h2 hno
      have h0 : timeIn trace first total n s y (k - 1) = 0 := by
        unfold timeIn
        apply List.sum_eq_zero
        intro x hx
        obtain ⟨r, hr, rfl⟩ := List.mem_map.mp hx
        obtain ⟨hr, hc⟩ := List.mem_filter.mp hr
        rw [decide_eq_true_eq] at hc
        apply overlap_zero
        rintro ⟨a, b⟩
        have hk : k - 1 < n := by
          rcases hlast2 with h | ⟨r', _, hk'⟩
          · omega
          · have := hk'.1; omega
        refine hno _ ((hm _).mpr ⟨r, hr, k - 1, ⟨hk, a, b⟩, rfl⟩) ?_
        simp only [key3, Prod.mk.injEq]
        exact ⟨hc.1, by omega, hc.2⟩
      rw [h0, zero_div]
      exact ⟨rfl, rfl⟩)
  refine ⟨lastOf m, ?_, hlast, hlast2, hfill.1, ?_⟩
  · rcases hlast2 with h | ⟨r, hr, hk⟩
    · omega
    · have := hk.1; omega
  · intro s k y v w
    rw [hfill.2, hres, htyp, max_eq_right (timeIn_nonneg _ _ _), max_eq_right (div_nonneg (timeIn_nonneg _ _ _) ht.pos.le)]

end
end Lp
