import Verif.Proofs.Slicer
import Mathlib.Tactic.Linarith
import Mathlib.Tactic.FieldSimp
import Mathlib.Algebra.BigOperators.Group.Finset.Basic

/-!
# Adding up the shares of the slices
-/

namespace Lp
open Spec
variable {S Y K : Type} [DecidableEq S] [DecidableEq Y] [Field K] [LinearOrder K] [IsStrictOrderedRing K]
variable {trace : List (TState S Y K)} {first total : K} {n : Nat}

theorem overlap_split {a b c d e : K} (hab : a ≤ b) (hcd : c ≤ d) (hde : d ≤ e) :
    overlap a b c d + overlap a b d e = overlap a b c e := by
  unfold overlap
  rcases le_total b d with h1 | h1 <;> rcases le_total b e with h2 | h2 <;> rcases le_total a c with h3 | h3 <;>
    rcases le_total a d with h4 | h4 <;> simp only [min_eq_left, min_eq_right, max_eq_left, max_eq_right, h1, h2, h3, h4] <;>
    simp only [max_def] <;> split_ifs <;> linarith

theorem overlap_split' {a m b c d : K} (ham : a ≤ m) (hmb : m ≤ b) (hcd : c ≤ d) :
    overlap a m c d + overlap m b c d = overlap a b c d := by
  have h : ∀ a b c d : K, overlap a b c d = overlap c d a b := by
    intro a b c d; unfold overlap; rw [min_comm, max_comm a c]
  rw [h a m, h m b, h a b]
  exact overlap_split hcd ham hmb

theorem overlap_empty {a c d : K} (hcd : c ≤ d) : overlap a a c d = 0 := by
  unfold overlap
  apply max_eq_left
  have := min_le_left a d
  have := le_max_left a c
  linarith

theorem overlap_within {a b c d : K} (hab : a ≤ b) (h1 : c ≤ a) (h2 : b ≤ d) : overlap a b c d = b - a := by
  unfold overlap
  rw [min_eq_left h2, max_eq_left h1]
  exact max_eq_right (by linarith)

theorem overlap_around {a b c d : K} (hcd : c ≤ d) (h1 : a ≤ c) (h2 : d ≤ b) : overlap a b c d = d - c := by
  unfold overlap
  rw [min_eq_right h2, max_eq_right h1]
  exact max_eq_right (by linarith)

theorem sliceAt_mono (hp : 0 < total) (n : Nat) {j k : Nat} (h : j ≤ k) : sliceAt first total n j ≤ sliceAt first total n k := by
  unfold sliceAt
  have : (j : K) ≤ (k : K) := by exact_mod_cast h
  have h2 : 0 ≤ total / (n : K) := div_nonneg hp.le (by positivity)
  have := mul_le_mul_of_nonneg_right this h2
  linarith

theorem sliceAt_zero (n : Nat) : sliceAt first total n 0 = first := by unfold sliceAt; simp

theorem sliceAt_last (hn : 0 < n) : sliceAt first total n n = first + total := by
  unfold sliceAt
  have : (n : K) ≠ 0 := by exact_mod_cast hn.ne'
  field_simp

theorem sliceAt_width (n k : Nat) : sliceAt first total n (k + 1) - sliceAt first total n k = total / (n : K) := by
  unfold sliceAt
  push_cast
  ring

theorem overlap_slices (hp : 0 < total) {a b : K} (hab : a ≤ b) (m : Nat) :
    ∑ k ∈ Finset.range m, overlap a b (sliceAt first total n k) (sliceAt first total n (k + 1)) =
      overlap a b first (sliceAt first total n m) := by
  induction m with
  | zero =>
    rw [sliceAt_zero]
    simp only [Finset.range_zero, Finset.sum_empty]
    unfold overlap
    symm
    apply max_eq_left
    have := min_le_right b first
    have := le_max_right a first
    linarith
  | succ m ih =>
    rw [Finset.sum_range_succ, ih]
    have h0 := sliceAt_mono (first := first) hp n (Nat.zero_le m)
    rw [sliceAt_zero] at h0
    exact overlap_split hab h0 (sliceAt_mono hp n (Nat.le_succ m))

theorem sum_list_finset {A : Type} (l : List A) (s : Finset Nat) (g : A → Nat → K) :
    ∑ k ∈ s, (l.map (fun r => g r k)).sum = (l.map (fun r => ∑ k ∈ s, g r k)).sum := by
  induction l with
  | nil => simp
  | cons a l ih => simp only [List.map_cons, List.sum_cons, Finset.sum_add_distrib, ih]

/-- All the time of a resource in a state is in the slices. -/
theorem timeIn_sum (ht : RightTrace trace first total) (hn : 0 < n) (s : S) (y : Y) :
    ∑ k ∈ Finset.range n, timeIn trace first total n s y k =
      ((trace.filter (fun r => r.resource = s ∧ r.value = y)).map (fun r => r.duration)).sum := by
  unfold timeIn
  rw [sum_list_finset]
  congr 1
  apply List.map_congr_left
  intro r hr
  have hr := (List.mem_filter.mp hr).1
  rw [overlap_slices ht.pos (ht.order r hr), sliceAt_last hn, overlap_within (ht.order r hr) (ht.firstLe r hr) (ht.lastLe r hr),
    ht.duration r hr]

theorem timeIn_zero {last : Nat} (hl : ∀ r ∈ trace, ∀ k, Touches first total n r k → k < last) (s : S) (y : Y) {k : Nat} (hk : k < n)
    (hk' : last ≤ k) : timeIn trace first total n s y k = 0 := by
  unfold timeIn
  apply List.sum_eq_zero
  intro x hx
  obtain ⟨r, hr, rfl⟩ := List.mem_map.mp hx
  apply overlap_zero
  intro ⟨h1, h2⟩
  have := hl r (List.mem_filter.mp hr).1 k ⟨hk, h1, h2⟩
  omega

theorem Spec.Consecutive.le : ∀ {L : List (TState S Y K)} {a b : K}, Consecutive a b L → a ≤ b
  | [], _, _, h => le_of_eq h
  | _ :: _, _, _, ⟨h1, h2, h3⟩ => h1 ▸ h2.trans h3.le

theorem Spec.Consecutive.sum : ∀ {L : List (TState S Y K)} {a b c d : K}, Consecutive a b L → c ≤ d →
    (L.map (fun r => overlap r.start r.end c d)).sum = overlap a b c d
  | [], a, b, c, d, h, hcd => by
    have h : a = b := h
    subst h
    rw [overlap_empty hcd]; rfl
  | r :: L, a, b, c, d, ⟨h1, h2, h3⟩, hcd => by
    rw [List.map_cons, List.sum_cons, h3.sum hcd, h1]
    rw [h1] at h2
    exact overlap_split' h2 h3.le hcd

theorem sum_by_value (l : List (TState S Y K)) (ys : List Y) (hys : ys.Nodup) (g : TState S Y K → K)
    (hg : ∀ r ∈ l, r.value ∉ ys → g r = 0) :
    (ys.map (fun y => ((l.filter (fun r => r.value = y)).map g).sum)).sum = (l.map g).sum := by
  induction l with
  | nil => simp
  | cons r l ih =>
    rw [List.map_cons, List.sum_cons, ← ih (fun x hx => hg x (List.mem_cons_of_mem _ hx))]
    have : ∀ y, (((r :: l).filter (fun r => r.value = y)).map g).sum =
        (if r.value = y then g r else 0) + ((l.filter (fun r => r.value = y)).map g).sum := by
      intro y
      rw [List.filter_cons]
      by_cases h : r.value = y <;> simp [h]
    simp only [this, List.sum_map_add]
    congr 1
    by_cases hm : r.value ∈ ys
    · simp only [eq_comm (a := r.value)]
      rw [List.sum_map_ite_eq]
      simp [List.count_eq_one_of_mem hys hm]
    · rw [hg r (by simp) hm]; simp

/-- During a slice the time of a resource in all the states together. -/
theorem timeIn_values (ys : List Y) (hys : ys.Nodup) (s : S) {k : Nat} (hk : k < n)
    (hy : ∀ r ∈ trace, ∀ k, Touches first total n r k → r.value ∈ ys) :
    (ys.map (fun y => timeIn trace first total n s y k)).sum =
      ((trace.filter (fun r => r.resource = s)).map (fun r =>
        overlap r.start r.end (sliceAt first total n k) (sliceAt first total n (k + 1)))).sum := by
  rw [← sum_by_value _ ys hys]
  · congr 1
    apply List.map_congr_left
    intro y _
    unfold timeIn
    rw [List.filter_filter]
    congr 2
    apply List.filter_congr
    intro r _
    simp [Bool.and_comm]
  · intro r hr hv
    apply overlap_zero
    intro ⟨h1, h2⟩
    exact hv (hy r (List.mem_filter.mp hr).1 k ⟨hk, h1, h2⟩)

/-- A resource that is always in one state. -/
theorem timeIn_full (ht : RightTrace trace first total) (hn : 0 < n) {ys : List Y} (hys : ys.Nodup) {s : S} {k : Nat} (hk : k < n)
    (hy : ∀ r ∈ trace, ∀ k, Touches first total n r k → r.value ∈ ys) {L : List (TState S Y K)}
    (hL : Consecutive first (first + total) L) (hp : L.Perm (trace.filter (fun r => r.resource = s))) :
    (ys.map (fun y => timeIn trace first total n s y k)).sum = total / (n : K) := by
  rw [timeIn_values ys hys s hk hy, ← (hp.map _).sum_eq]
  have h1 := sliceAt_mono (first := first) ht.pos n (Nat.le_succ k)
  have h0 := sliceAt_mono (first := first) ht.pos n (Nat.zero_le k)
  have h2 := sliceAt_mono (first := first) ht.pos n (show k + 1 ≤ n from hk)
  rw [sliceAt_zero] at h0
  rw [sliceAt_last hn] at h2
  rw [hL.sum h1, overlap_around h1 h0 h2, sliceAt_width]

/-- Such a resource is active in the last slice. -/
theorem Spec.Consecutive.touches : ∀ {L : List (TState S Y K)} {a : K}, 0 < n → 0 < total → a < first + total →
    Consecutive a (first + total) L → ∃ r ∈ L, Touches first total n r (n - 1)
  | [], a, _, _, ha, h => by have h : a = first + total := h; rw [h] at ha; exact absurd ha (lt_irrefl _)
  | r :: L, a, hn, hp, ha, ⟨h1, h2, h3⟩ => by
    by_cases h : r.end < first + total
    · obtain ⟨r', hr', ht'⟩ := Consecutive.touches hn hp h h3
      exact ⟨r', List.mem_cons_of_mem _ hr', ht'⟩
    · have h4 := h3.le
      have h5 : r.end = first + total := le_antisymm h4 (not_lt.mp h)
      refine ⟨r, by simp, by omega, ?_, ?_⟩
      · rw [h5, ← sliceAt_last hn]
        have := sliceAt_width (first := first) (total := total) n (n - 1)
        rw [show n - 1 + 1 = n by omega] at this
        have h6 : 0 < total / (n : K) := div_pos hp (by exact_mod_cast hn)
        linarith
      · rw [show n - 1 + 1 = n by omega, sliceAt_last hn, h1]; exact ha

end Lp
