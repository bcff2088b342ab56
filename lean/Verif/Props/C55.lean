import Verif.Proofs.Counter
import Verif.Props.C54

/-!
# C55 — from a trace of counters to shares of what is counted

`slicerprvcounter(trace, n)` and `pjdump2micro(trace, n, "Counter", …)`.  Of a counter `y` of resource `s`, `counted … k` is what it counts
during slice `k` and `watched … k` the time of the slice during which it is known (`Spec/Counter.lean`).
-/

namespace Lp.C55
open Spec
variable {S Y K : Type} [LinearOrder S] [LinearOrder Y] [Field K] [LinearOrder K] [IsStrictOrderedRing K]

theorem type_sum_aux {trace : List (TCounter S Y K)} {first total : K} {n last : Nat} {o : List (SliceRow S Y K)} (hle : last ≤ n)
    (hlast : ∀ s y k, k < n → 0 < watched trace first total n s y k → k < last)
    (nd : (o.map (fun r => (r.resource, r.slice, r.type))).Nodup)
    (mem : ∀ s k y v w, (∃ e ∈ o, e.resource = s ∧ e.slice = k ∧ e.type = y ∧ e.sum = v ∧ e.normalized = w) ↔
        (∃ y', 2 ≤ (readings trace s y').length) ∧ (∃ s', 2 ≤ (readings trace s' y).length) ∧
        1 ≤ k ∧ k ≤ last ∧ v = meanIn trace first total n s y (k - 1) ∧ w = meanIn trace first total n s y (k - 1))
    {y : Y} (hy : ∃ s', 2 ≤ (readings trace s' y).length) :
    ((o.filter (fun e => e.type = y)).map (fun e => e.normalized)).sum = meansOf trace first total n y := by
  classical
  let R := ((trace.map (fun r => r.resource)).dedup).filter (fun s => ∃ y', 2 ≤ (readings trace s y').length)
  have hz : ∀ s k, k < n → last ≤ k → meanIn trace first total n s y k = 0 := by
    intro s k h1 h2
    unfold meanIn
    rw [counted_unwatched (fun h => by have := hlast s y k h1 h; omega)]
    simp
  have hz2 : ∀ s k, ¬ (∃ y', 2 ≤ (readings trace s y').length) → meanIn trace first total n s y k = 0 := by
    intro s k h1
    unfold meanIn
    have hp : pieces trace s y = [] := by
      by_contra hc
      exact h1 ⟨y, pieces_nonempty.mp hc⟩
    have : counted trace first total n s y k = 0 := by unfold counted; rw [hp]; rfl
    rw [this]
    simp
  have hmem : ∀ s, s ∈ R ↔ ∃ y', 2 ≤ (readings trace s y').length := by
    intro s
    simp only [R, List.mem_filter, List.mem_dedup, List.mem_map, decide_eq_true_eq, and_iff_right_iff_imp]
    rintro ⟨y', h⟩
    obtain ⟨r, hr⟩ := List.exists_mem_of_ne_nil (readings trace s y') (by intro e; rw [e] at h; simp at h)
    unfold readings at hr
    obtain ⟨h1, h2⟩ := List.mem_filter.mp hr
    rw [decide_eq_true_eq] at h2
    exact ⟨r, h1, h2.1⟩
  rw [C53.sum_aux (key := fun e => (e.resource, e.slice)) (ks := R.flatMap (fun s => (List.range last).map (fun k => (s, k + 1))))
    (g := fun a => meanIn trace first total n a.1 y (a.2 - 1))]
  · rw [sum_flatMap_map]
    unfold meansOf
    have : ∀ L : List S, ((L.filter (fun s => ∃ y', 2 ≤ (readings trace s y').length)).map (fun s =>
        (((List.range last).map (fun k => (s, k + 1))).map (fun a => meanIn trace first total n a.1 y (a.2 - 1))).sum)).sum =
        (L.map (fun s => ∑ k ∈ Finset.range n, meanIn trace first total n s y k)).sum := by
      intro L
      rw [sum_filter_ite]
      congr 1
      apply List.map_congr_left
      intro s _
      split_ifs with h
      · rw [List.map_map]
        simp only [Function.comp_def, Nat.add_sub_cancel]
        rw [C53.range_sum_aux]
        apply Finset.sum_subset
        · intro k hk
          rw [Finset.mem_range] at *
          omega
        · intro k h1 h2
          rw [Finset.mem_range] at *
          exact hz s k h1 (by omega)
      · rw [decide_eq_true_eq] at h
        exact (Finset.sum_eq_zero (fun k _ => hz2 s k h)).symm
    exact this _
  · apply C53.nodup_aux nd
    intro x hx x' hx' h1 h2 h3
    rw [decide_eq_true_eq] at h1 h2
    simp only [Prod.mk.injEq] at h3 ⊢
    exact ⟨h3.1, h3.2, h1.trans h2.symm⟩
  · rw [List.nodup_flatMap]
    constructor
    · intro s _
      rw [List.nodup_map_iff (fun a b h => by simpa using h)]
      exact List.nodup_range
    · have hnd : R.Nodup := (List.nodup_dedup _).filter _
      refine hnd.imp ?_
      intro a b hab x hx hx'
      obtain ⟨k, _, rfl⟩ := List.mem_map.mp hx
      obtain ⟨k', _, e⟩ := List.mem_map.mp hx'
      simp only [Prod.mk.injEq] at e
      exact hab e.1.symm
  · rintro ⟨s, k⟩ v
    simp only [List.mem_flatMap, List.mem_map, List.mem_range, hmem, Prod.mk.injEq, List.mem_filter, decide_eq_true_eq]
    constructor
    · rintro ⟨x, ⟨hx, hc⟩, ⟨rfl, rfl⟩, rfl⟩
      obtain ⟨a, b, h1, h2, h3, h4⟩ := (mem _ _ _ _ _).mp ⟨x, hx, rfl, rfl, rfl, rfl, rfl⟩
      refine ⟨⟨x.resource, a, x.slice - 1, by omega, rfl, by omega⟩, ?_⟩
      rw [h4, hc]
    · rintro ⟨⟨s', a, k', hk, rfl, rfl⟩, rfl⟩
      obtain ⟨x, hx, b1, b2, b3, b4, b5⟩ := (mem s' (k' + 1) y _ _).mpr ⟨a, hy, by omega, by omega, rfl, rfl⟩
      exact ⟨x, ⟨hx, b3⟩, ⟨b1, b2⟩, b5⟩

/-- The result has exactly one row for each resource that has a counter with two readings, each type of such a counter and each slice up to the
last one in which a counter is known: `Mean` is the mean of the counter during the slice, `Normalized` its share of the sum of
the means of this type. -/
theorem rows (trace : List (TCounter S Y K)) (first total : K) (ht : RightCounters trace first total) (n : Nat) (hn : 0 < n) :
    ∃ last, last ≤ n ∧ (∀ s y k, k < n → 0 < watched trace first total n s y k → k < last) ∧
      (last = 0 ∨ ∃ s y, 0 < watched trace first total n s y (last - 1)) ∧
      ((slicerprvcounter trace n).map (fun r => (r.resource, r.slice, r.type))).Nodup ∧
      ∀ s k y v w, (∃ e ∈ slicerprvcounter trace n, e.resource = s ∧ e.slice = k ∧ e.type = y ∧ e.sum = v ∧ e.normalized = w) ↔
        (∃ y', 2 ≤ (readings trace s y').length) ∧ (∃ s', 2 ≤ (readings trace s' y).length) ∧ 1 ≤ k ∧ k ≤ last ∧
        v = meanIn trace first total n s y (k - 1) ∧ w = meanIn trace first total n s y (k - 1) / meansOf trace first total n y := by
  obtain ⟨o, e, _, last, hle, hlast, hlast', nd, mem⟩ := counters_filled ht hn
  refine ⟨last, hle, hlast, hlast', ?_, ?_⟩
  · rw [e]
    unfold shares
    rw [List.map_map]
    exact nd
  · intro s k y v w
    rw [e]
    unfold shares
    constructor
    · rintro ⟨x, hx, rfl, rfl, rfl, rfl, rfl⟩
      obtain ⟨x', hx', rfl⟩ := List.mem_map.mp hx
      obtain ⟨a, b, h1, h2, h3, h4⟩ := (mem _ _ _ _ _).mp ⟨x', hx', rfl, rfl, rfl, rfl, rfl⟩
      refine ⟨a, b, h1, h2, h3, ?_⟩
      dsimp only
      rw [type_sum_aux hle hlast nd mem b, h4]
    · rintro ⟨a, b, h1, h2, rfl, rfl⟩
      obtain ⟨x, hx, rfl, rfl, rfl, b4, b5⟩ := (mem s k y _ _).mpr ⟨a, b, h1, h2, rfl, rfl⟩
      refine ⟨_, List.mem_map.mpr ⟨x, hx, rfl⟩, rfl, rfl, rfl, b4, ?_⟩
      dsimp only
      rw [type_sum_aux hle hlast nd mem b, b5]

theorem counted_nonneg_aux {trace : List (TCounter S Y K)} {first total : K} (ht : RightCounters trace first total) {n : Nat}
    (h0 : ∀ r ∈ trace, 0 ≤ r.value.2) (s : S) (y : Y) (k : Nat) : 0 ≤ counted trace first total n s y k := by
  unfold counted
  apply List.sum_nonneg
  intro v hv
  obtain ⟨x, hx, rfl⟩ := List.mem_map.mp hv
  have hlt := ht.length _ _ _ hx
  have : 0 ≤ x.2.2 := by
    unfold pieces readings at hx
    obtain ⟨⟨a, b⟩, hab, rfl⟩ := List.mem_map.mp hx
    exact h0 b (List.mem_filter.mp (List.mem_of_mem_tail (List.of_mem_zip hab).2)).1
  exact mul_nonneg this (div_nonneg (overlap_nonneg _ _ _ _) (by linarith))

theorem meanIn_aux {trace : List (TCounter S Y K)} {first total : K} (ht : RightCounters trace first total) {n : Nat}
    (h0 : ∀ r ∈ trace, 0 ≤ r.value.2) (s : S) (y : Y) (k : Nat) :
    meanIn trace first total n s y k = counted trace first total n s y k / watched trace first total n s y k :=
  max_eq_right (div_nonneg (counted_nonneg_aux ht h0 s y k) (watched_nonneg s y k))

theorem meanIn_watched_aux {trace : List (TCounter S Y K)} {first total : K} (ht : RightCounters trace first total) {n : Nat}
    (h0 : ∀ r ∈ trace, 0 ≤ r.value.2) (s : S) (y : Y) (k : Nat) :
    meanIn trace first total n s y k * watched trace first total n s y k = counted trace first total n s y k := by
  rw [meanIn_aux ht h0]
  by_cases h : 0 < watched trace first total n s y k
  · exact div_mul_cancel₀ _ h.ne'
  · rw [counted_unwatched h, zero_div, zero_mul]

/-- Nothing is lost: if no value is negative, the means of a counter, each times the time during which the counter is known, add up to
all its readings but the first one. -/
theorem conserved (trace : List (TCounter S Y K)) (first total : K) (ht : RightCounters trace first total) (n : Nat) (hn : 0 < n)
    (h0 : ∀ r ∈ trace, 0 ≤ r.value.2) (s : S) (y : Y) (hr : 2 ≤ (readings trace s y).length) :
    (((slicerprvcounter trace n).filter (fun e => e.resource = s ∧ e.type = y)).map (fun e =>
      e.sum * watched trace first total n s y (e.slice - 1))).sum = ((readings trace s y).tail.map (fun r => r.value.2)).sum := by
  obtain ⟨last, hle, hlast, _, nd, mem⟩ := rows trace first total ht n hn
  rw [← pieces_values, ← counted_sum ht hn]
  rw [C53.sum_aux (key := fun e => e.slice) (ks := (List.range last).map (· + 1)) (g := fun k => counted trace first total n s y (k - 1))]
  · rw [List.map_map]
    simp only [Function.comp_def, Nat.add_sub_cancel]
    rw [C53.range_sum_aux]
    apply Finset.sum_subset
    · intro k hk
      rw [Finset.mem_range] at *
      omega
    · intro k h1 h2
      rw [Finset.mem_range] at *
      exact counted_unwatched (fun h => h2 (hlast s y k h1 h))
  · apply C53.nodup_aux nd
    intro x hx x' hx' h1 h2 h3
    rw [decide_eq_true_eq] at h1 h2
    rw [h1.1, h1.2, h2.1, h2.2, h3]
  · rw [List.nodup_map_iff (fun a b h => by simpa using h)]
    exact List.nodup_range
  · intro k v
    constructor
    · rintro ⟨x, hx, rfl, rfl⟩
      obtain ⟨hx, hc⟩ := List.mem_filter.mp hx
      rw [decide_eq_true_eq] at hc
      obtain ⟨_, _, h1, h2, h3, _⟩ := (mem _ _ _ _ _).mp ⟨x, hx, rfl, rfl, rfl, rfl, rfl⟩
      refine ⟨List.mem_map.mpr ⟨x.slice - 1, List.mem_range.mpr (by omega), by omega⟩, ?_⟩
      rw [h3, hc.1, hc.2, meanIn_watched_aux ht h0]
    · rintro ⟨hk, rfl⟩
      obtain ⟨k, hk', rfl⟩ := List.mem_map.mp hk
      rw [List.mem_range] at hk'
      obtain ⟨x, hx, b1, b2, b3, b4, _⟩ := (mem s (k + 1) y _ _).mpr ⟨⟨y, hr⟩, ⟨s, hr⟩, by omega, by omega, rfl, rfl⟩
      refine ⟨x, List.mem_filter.mpr ⟨hx, by rw [decide_eq_true_eq]; exact ⟨b1, b3⟩⟩, b2, ?_⟩
      rw [b4, b2, Nat.add_sub_cancel, meanIn_watched_aux ht h0]

theorem meansOf_pos_aux {trace : List (TCounter S Y K)} {first total : K} (ht : RightCounters trace first total) {n : Nat} (hn : 0 < n)
    (h0 : ∀ r ∈ trace, 0 ≤ r.value.2) {s : S} {y : Y} {r : TCounter S Y K} (hr : r ∈ (readings trace s y).tail) (hv : 0 < r.value.2) :
    0 < meansOf trace first total n y := by
  have h1 : 0 < ∑ k ∈ Finset.range n, counted trace first total n s y k := by
    rw [counted_sum ht hn, pieces_values]
    refine lt_of_lt_of_le hv ?_
    apply List.single_le_sum
    · intro v hv
      obtain ⟨r, hr, rfl⟩ := List.mem_map.mp hv
      exact h0 r (List.mem_filter.mp (List.mem_of_mem_tail hr)).1
    · exact List.mem_map.mpr ⟨r, hr, rfl⟩
  have h2 : ∃ k ∈ Finset.range n, 0 < counted trace first total n s y k := by
    by_contra hc
    have : ∑ k ∈ Finset.range n, counted trace first total n s y k ≤ 0 :=
      Finset.sum_nonpos (fun k hk => not_lt.mp (fun h => hc ⟨k, hk, h⟩))
    linarith
  obtain ⟨k, hk, h2⟩ := h2
  have hw : 0 < watched trace first total n s y k := by
    by_contra hc
    rw [counted_unwatched hc] at h2
    exact lt_irrefl _ h2
  have h3 : 0 < meanIn trace first total n s y k := lt_max_of_lt_right (div_pos h2 hw)
  have hnn : ∀ s' k', 0 ≤ meanIn trace first total n s' y k' := fun s' k' => le_max_left _ _
  have hmem : s ∈ (trace.map (fun r => r.resource)).dedup := by
    rw [List.mem_dedup, List.mem_map]
    unfold readings at hr
    have := List.mem_filter.mp (List.mem_of_mem_tail hr)
    rw [decide_eq_true_eq] at this
    exact ⟨r, this.1, this.2.1⟩
  unfold meansOf
  refine lt_of_lt_of_le (h3.trans_le (Finset.single_le_sum (f := fun k => meanIn trace first total n s y k)
    (fun k' _ => hnn s k') hk)) ?_
  apply List.single_le_sum
  · intro v hv
    obtain ⟨s', _, rfl⟩ := List.mem_map.mp hv
    exact Finset.sum_nonneg (fun k' _ => hnn s' k')
  · exact List.mem_map.mpr ⟨s, hmem, rfl⟩

/-- The shares of each type that counts anything add up to 1. -/
theorem normalized (trace : List (TCounter S Y K)) (first total : K) (ht : RightCounters trace first total) (n : Nat) (hn : 0 < n)
    (h0 : ∀ r ∈ trace, 0 ≤ r.value.2) (s : S) (y : Y) (r : TCounter S Y K) (hr : r ∈ (readings trace s y).tail) (hv : 0 < r.value.2) :
    (((slicerprvcounter trace n).filter (fun e => e.type = y)).map (fun e => e.normalized)).sum = 1 := by
  have hpos := meansOf_pos_aux (n := n) ht hn h0 hr hv
  have hy : ∃ s', 2 ≤ (readings trace s' y).length := by
    refine ⟨s, ?_⟩
    have := List.length_pos_of_mem hr
    rw [List.length_tail] at this
    omega
  obtain ⟨o, e, _, last, hle, hlast, hlast', nd, mem⟩ := counters_filled (n := n) ht hn
  have hs := type_sum_aux hle hlast nd mem hy
  rw [e]
  unfold shares
  rw [List.filter_map, List.map_map]
  have hf : ((fun e : SliceRow S Y K => decide (e.type = y)) ∘ fun r : SliceRow S Y K =>
      ({ r with normalized := r.normalized / ((o.filter (fun x => x.type = r.type)).map (fun x => x.normalized)).sum } : SliceRow S Y K)) =
      fun e => decide (e.type = y) := rfl
  rw [hf]
  have : (o.filter (fun e => decide (e.type = y))).map ((fun e : SliceRow S Y K => e.normalized) ∘ fun r : SliceRow S Y K =>
      ({ r with normalized := r.normalized / ((o.filter (fun x => x.type = r.type)).map (fun x => x.normalized)).sum } : SliceRow S Y K)) =
      (o.filter (fun e => decide (e.type = y))).map (fun e => e.normalized / meansOf trace first total n y) := by
    apply List.map_congr_left
    intro x hx
    have hx := (List.mem_filter.mp hx).2
    rw [decide_eq_true_eq] at hx
    simp only [Function.comp]
    rw [hx, hs]
  rw [this]
  simp only [div_eq_mul_inv]
  rw [List.sum_map_mul_right, hs, mul_inv_cancel₀ hpos.ne']

/-- If no value is negative and the counters of a type are always known, `Normalized` is what the counter counts during the slice as a share
of all that the counters of this type count. -/
theorem share (trace : List (TCounter S Y K)) (first total : K) (ht : RightCounters trace first total) (n : Nat) (hn : 0 < n)
    (h0 : ∀ r ∈ trace, 0 ≤ r.value.2) (y : Y)
    (hc : ∀ s, 2 ≤ (readings trace s y).length → Covers first (first + total) (pieces trace s y))
    (e : SliceRow S Y K) (he : e ∈ slicerprvcounter trace n) (hey : e.type = y) :
    e.normalized = counted trace first total n e.resource y (e.slice - 1) / countedAll trace y := by
  obtain ⟨last, hle, hlast, _, nd, mem⟩ := rows trace first total ht n hn
  obtain ⟨_, _, h1, h2, _, h4⟩ := (mem _ _ _ _ _).mp ⟨e, he, rfl, rfl, rfl, rfl, rfl⟩
  have hw : (0 : K) < total / (n : K) := div_pos ht.pos (by exact_mod_cast hn)
  have hmean : ∀ s k, k < n → meanIn trace first total n s y k = counted trace first total n s y k / (total / (n : K)) := by
    intro s k hk
    rw [meanIn_aux ht h0]
    by_cases hl : 2 ≤ (readings trace s y).length
    · rw [watched_full ht.pos hn (hc s hl) hk]
    · have hp : pieces trace s y = [] := by
        by_contra hp
        exact hl (pieces_nonempty.mp hp)
      have : counted trace first total n s y k = 0 := by unfold counted; rw [hp]; rfl
      rw [this, zero_div, zero_div]
  have hsum : meansOf trace first total n y = countedAll trace y / (total / (n : K)) := by
    unfold meansOf countedAll
    rw [div_eq_mul_inv, ← List.sum_map_mul_right]
    congr 1
    apply List.map_congr_left
    intro s _
    rw [← pieces_values, ← counted_sum ht hn, ← div_eq_mul_inv, Finset.sum_div]
    apply Finset.sum_congr rfl
    intro k hk
    exact hmean s k (Finset.mem_range.mp hk)
  rw [h4, hey, hmean _ _ (by omega), hsum, div_div_div_cancel_right₀ hw.ne']

theorem cube_aux {trace : List (TCounter S Y K)} {first total : K} (ht : RightCounters trace first total) (resources : List (Container S))
    {n : Nat} (hn : 0 < n) (enable : Bool) :
    ∃ (last : Nat) (space : List S) (type : List Y) (f : Nat × Nat × Nat → K),
      pjdump2microC trace resources n enable =
        ((if enable then hierarchyOf resources space (rSortUnique (resources.map (fun c => c.parent))).reverse else .ok ([], [0])) >>=
          fun nv => .ok ⟨space, type, (List.range last).map (· + 1), rArray space.length type.length last f, nv.1, nv.2⟩) ∧
      last ≤ n ∧ (∀ s y k, k < n → 0 < watched trace first total n s y k → k < last) ∧
      (last = 0 ∨ ∃ s y, 0 < watched trace first total n s y (last - 1)) ∧
      space.Pairwise (· < ·) ∧ (∀ s, s ∈ space ↔ (∃ y, 2 ≤ (readings trace s y).length) ∧
        (enable = true → ∀ c ∈ resources, c.parent ≠ s)) ∧
      type.Pairwise (· < ·) ∧ (∀ y, y ∈ type ↔ ∃ s, 2 ≤ (readings trace s y).length) ∧
      ∀ (i j k : Nat) (s : S) (y : Y), space[i]? = some s → type[j]? = some y → k < last →
        f (i, j, k) = meanIn trace first total n s y k / meansOf trace first total n y := by
  obtain ⟨last, hle, hlast, hlast', nd, mem⟩ := rows trace first total ht n hn
  obtain ⟨space, type, f, h1, h2, h3, h4, h5, h6⟩ := microOf_spec (df₀ := slicerprvcounter trace n) (last := last)
    (rs := fun s => ∃ y, 2 ≤ (readings trace s y).length) (ty := fun y => ∃ s, 2 ≤ (readings trace s y).length)
    (W := fun s y k => meanIn trace first total n s y k / meansOf trace first total n y) nd (by
      intro e he
      obtain ⟨a, b, c, d, _, g⟩ := (mem _ _ _ _ _).mp ⟨e, he, rfl, rfl, rfl, rfl, rfl⟩
      exact ⟨a, b, c, d, g⟩) (by
      intro s y k hs hy h1 h2
      obtain ⟨e, he, a, b, c, _⟩ := (mem s k y _ _).mpr ⟨hs, hy, h1, h2, rfl, rfl⟩
      exact ⟨e, he, a, b, c⟩) (by
      rintro s y ⟨y', hs⟩ _
      obtain ⟨k, hk, h⟩ := (watched_some ht hn).mpr hs
      have := hlast _ _ k hk h
      omega) (by
      rintro s ⟨y', hs⟩
      exact ⟨y', s, hs⟩) (by
      rintro s ⟨y', hs⟩
      exact ⟨y', s, hs⟩) (by
      rcases hlast' with h | ⟨s, y, h⟩
      · exact .inl h
      · right
        obtain ⟨x, hx, _⟩ := watched_pos.mp h
        exact ⟨s, y, pieces_nonempty.mp (List.ne_nil_of_mem hx)⟩) resources enable
  exact ⟨last, space, type, f, h6, hle, hlast, hlast', h1, h3, h2, h4, h5⟩

/-- The array of `pjdump2micro(trace, n, "Counter", FALSE)`: resources, types and slices in order; the cells are the shares.  It never
fails. -/
theorem cube (trace : List (TCounter S Y K)) (first total : K) (ht : RightCounters trace first total) (resources : List (Container S))
    (n : Nat) (hn : 0 < n) :
    ∃ (last : Nat) (space : List S) (type : List Y) (f : Nat × Nat × Nat → K),
      pjdump2microC trace resources n false =
        .ok ⟨space, type, (List.range last).map (· + 1), rArray space.length type.length last f, [], [0]⟩ ∧
      last ≤ n ∧ (∀ s y k, k < n → 0 < watched trace first total n s y k → k < last) ∧
      (last = 0 ∨ ∃ s y, 0 < watched trace first total n s y (last - 1)) ∧
      space.Pairwise (· < ·) ∧ (∀ s, s ∈ space ↔ ∃ y, 2 ≤ (readings trace s y).length) ∧
      type.Pairwise (· < ·) ∧ (∀ y, y ∈ type ↔ ∃ s, 2 ≤ (readings trace s y).length) ∧
      ∀ (i j k : Nat) (s : S) (y : Y), space[i]? = some s → type[j]? = some y → k < last →
        f (i, j, k) = meanIn trace first total n s y k / meansOf trace first total n y := by
  obtain ⟨last, space, type, f, h1, h2, h3, h4, h5, h6, h7, h8, h9⟩ := cube_aux ht resources hn false
  exact ⟨last, space, type, f, h1, h2, h3, h4, h5, fun s => (h6 s).trans ⟨fun h => h.1, fun h => ⟨h, by simp⟩⟩, h7, h8, h9⟩

/-- With the hierarchy: as for states (C54), the names are the resources with counters and without children, in increasing order, then the containers with
children, in decreasing order, and the vector gives the places of their parents. -/
theorem hierarchy (trace : List (TCounter S Y K)) (first total : K) (ht : RightCounters trace first total) (resources : List (Container S))
    (root : S) (hr : RightResources resources root) (hknown : ∀ r ∈ trace, ∃ c ∈ resources, c.resource = r.resource) (n : Nat) (hn : 0 < n) :
    ∃ m parents f, pjdump2microC trace resources n true = .ok m ∧ m.names = m.space ++ parents ∧
      m.space.Pairwise (· < ·) ∧ (∀ s, s ∈ m.space ↔ (∃ y, 2 ≤ (readings trace s y).length) ∧ ∀ c ∈ resources, c.parent ≠ s) ∧
      parents.Pairwise (· > ·) ∧ (∀ s, s ∈ parents ↔ ∃ c ∈ resources, c.parent = s) ∧
      RightHierarchy resources root m.names m.hierarchy ∧
      m.type.Pairwise (· < ·) ∧ (∀ y, y ∈ m.type ↔ ∃ s, 2 ≤ (readings trace s y).length) ∧
      (∃ last, m.time = (List.range last).map (· + 1) ∧ last ≤ n ∧
        (∀ s y k, k < n → 0 < watched trace first total n s y k → k < last) ∧
        (last = 0 ∨ ∃ s y, 0 < watched trace first total n s y (last - 1))) ∧
      m.data = rArray m.space.length m.type.length m.time.length f ∧
      ∀ (i j k : Nat) (s : S) (y : Y), m.space[i]? = some s → m.type[j]? = some y → k < m.time.length →
        f (i, j, k) = meanIn trace first total n s y k / meansOf trace first total n y := by
  obtain ⟨last, space, type, f, h9, h1, h2, h3, h4, h6, h5, h7, h8⟩ := cube_aux ht resources hn true
  have hps : ((rSortUnique (resources.map (fun c => c.parent))).reverse).Pairwise (· > ·) := by
    rw [List.pairwise_reverse]
    exact rSortUnique_sorted _
  have hpm : ∀ s, s ∈ (rSortUnique (resources.map (fun c => c.parent))).reverse ↔ ∃ c ∈ resources, c.parent = s := by
    intro s
    rw [List.mem_reverse, mem_rSortUnique, List.mem_map]
  generalize (rSortUnique (resources.map (fun c => c.parent))).reverse = parents at h9 hps hpm
  have hsm : ∀ s, s ∈ space ↔ (∃ y, 2 ≤ (readings trace s y).length) ∧ ∀ c ∈ resources, c.parent ≠ s :=
    fun s => (h6 s).trans ⟨fun h => ⟨h.1, h.2 rfl⟩, fun h => ⟨h.1, fun _ => h.2⟩⟩
  obtain ⟨h, e, hh⟩ := hierarchyOf_right hr (space := space) (parents := parents) (by
      rw [List.nodup_append']
      refine ⟨h4.imp (fun h => ne_of_lt h), hps.imp (fun h => ne_of_gt h), ?_⟩
      intro s hs hp
      obtain ⟨c, hc, e⟩ := (hpm s).mp hp
      exact ((hsm s).mp hs).2 c hc e) (by
      intro s hs
      obtain ⟨y, hy⟩ := ((hsm s).mp hs).1
      obtain ⟨r, hr⟩ := List.exists_mem_of_ne_nil (readings trace s y) (by intro e; rw [e] at hy; simp at hy)
      obtain ⟨h1, h2⟩ := List.mem_filter.mp hr
      rw [decide_eq_true_eq] at h2
      rw [← h2.1]
      exact hknown r h1) hpm
  simp only [if_true] at h9
  rw [e] at h9
  exact ⟨_, parents, f, h9, rfl, h4, hsm, hps, hpm, hh, h5, h7, ⟨last, rfl, h1, h2, h3⟩, by simp, fun i j k s y hi hj hk =>
    h8 i j k s y hi hj (by simpa using hk)⟩

/-- From the counters to the partitions: `oaggregate` applied to the array gives a right result about the shares. -/
theorem aggregated {F : Type} [FloatP F ℝ] {u : ℝ} (fl : FloatLaws F ℝ u) (randMax : ℝ) (hr : 2 ≤ randMax) (t : F)
    (ht : (0 : ℝ) < FloatP.toK t) (hu : 11 * u ≤ FloatP.toK t) :
    ∃ N : Nat, ∀ (trace : List (TCounter S Y ℝ)) (first total : ℝ) (resources : List (Container S)) (n : Nat) (m : Micro S Y ℝ)
      (share : Nat → Nat → Nat → ℝ),
      RightCounters trace first total → 0 < n → n ≤ 65535 → pjdump2microC trace resources n false = .ok m → m.time ≠ [] →
      (∀ (i j k : Nat) (s : S) (y : Y), m.space[i]? = some s → m.type[j]? = some y → k < m.time.length →
        share i j k = meanIn trace first total n s y k / meansOf trace first total n y) →
      let gain := gain3 m.space.length m.type.length share
      let loss := loss3 m.space.length m.type.length share
      let all := Finset.Icc 0 (m.time.length - 1)
      m.space.length * m.type.length < 2 ^ 32 → gain all ≠ 0 → loss all ≠ 0 →
      let quality := relative gain loss all (fun I : Nat × Nat => Finset.Icc I.1 I.2)
      ∀ fuel, N ≤ fuel → ∃ r, oaggregate false fuel randMax id m.data t = .ok r ∧
        RightSheet ORow.parameter (Tiles 0 m.time.length) (Tiles 0 m.time.length) quality
          (fun p I => ⟨p, I.1 + 1, I.2 + 1, (quality I).gain, (quality I).loss⟩) r := by
  obtain ⟨N, hN⟩ := C49.ordered fl randMax hr t ht hu
  refine ⟨N, ?_⟩
  intro trace first total resources n m share htr hn0 hn hm htime hshare
  obtain ⟨last, space, type, f, h1, h2, h3, h4, h5, h6, h7, h8, h9⟩ := cube trace first total htr resources n hn0
  obtain rfl := Except.ok.inj (hm.symm.trans h1)
  have hlen : ((List.range last).map (· + 1)).length = last := by simp
  dsimp only at hshare htime ⊢
  rw [hlen] at hshare ⊢
  intro hF hg hl fuel hf
  obtain ⟨b1, b2, _⟩ := C54.gain3_pos_aux hg
  have hl0 : 0 < last := by
    rcases Nat.eq_zero_or_pos last with h | h
    · subst h; simp at htime
    · exact h
  rw [rArray_congr (f := f) (g := fun x => share x.1 x.2.1 x.2.2)]
  · apply hN space.length type.length last (fun x => share x.1 x.2.1 x.2.2) b1 b2 hl0 (by omega) hF ?_ hg hl fuel hf
    intro i j k hi hj hk
    dsimp only
    rw [hshare i j k _ _ (List.getElem?_eq_getElem hi) (List.getElem?_eq_getElem hj) hk]
    apply div_nonneg (le_max_left _ _)
    unfold meansOf
    apply List.sum_nonneg
    intro v hv
    obtain ⟨s', _, rfl⟩ := List.mem_map.mp hv
    exact Finset.sum_nonneg (fun k' _ => le_max_left _ _)
  · intro i j k hi hj hk
    dsimp only
    rw [hshare i j k _ _ (List.getElem?_eq_getElem hi) (List.getElem?_eq_getElem hj) hk,
      h9 i j k _ _ (List.getElem?_eq_getElem hi) (List.getElem?_eq_getElem hj) hk]

/-! ## Concrete cases -/

/-- Two resources, 0 and 1, with the counter 7, from time 1 to time 5; each row has the count of the interval before it. -/
def counters2 : List (TCounter Nat Nat ℚ) :=
  [⟨0, 1, 2, 1, (7, 5)⟩, ⟨1, 1, 3, 2, (7, 9)⟩, ⟨0, 2, 5, 3, (7, 4)⟩, ⟨1, 3, 5, 2, (7, 8)⟩, ⟨0, 5, 5, 0, (7, 6)⟩, ⟨1, 5, 5, 0, (7, 2)⟩]

theorem pieces2_aux : pieces counters2 0 7 = [(1, 2, 4), (2, 5, 6)] ∧ pieces counters2 1 7 = [(1, 3, 8), (3, 5, 2)] := by
  decide +kernel

theorem right2_aux : RightCounters counters2 1 4 := by
  refine ⟨by decide +kernel, by decide +kernel, by decide +kernel, by decide +kernel, by decide +kernel, ?_, by norm_num⟩
  intro s y x hx
  by_cases h : y = 7
  · subst h
    by_cases h0 : s = 0
    · subst h0
      rw [pieces2_aux.1] at hx
      revert x
      decide +kernel
    · by_cases h1 : s = 1
      · subst h1
        rw [pieces2_aux.2] at hx
        revert x
        decide +kernel
      · have : pieces counters2 s 7 = [] := by
          by_contra hc
          have := pieces_nonempty.mp hc
          simp [readings, counters2, List.filter_cons, Ne.symm h0, Ne.symm h1] at this
        rw [this] at hx
        cases hx
  · have : pieces counters2 s y = [] := by
      by_contra hc
      have := pieces_nonempty.mp hc
      simp [readings, counters2, List.filter_cons, Ne.symm h] at this
    rw [this] at hx
    cases hx

example : List.Perm ((slicerprvcounter counters2 2).map (fun r => (r.resource, r.slice, r.type, r.sum, r.normalized)))
    [(0, 1, 7, 3, 3 / 10), (0, 2, 7, 2, 1 / 5), (1, 1, 7, 4, 2 / 5), (1, 2, 7, 1, 1 / 10)] := by
  decide +kernel

/-- The hypotheses of the theorems hold of it. -/
example : (((slicerprvcounter counters2 3).filter (fun e => e.resource = 0 ∧ e.type = 7)).map (fun e =>
    e.sum * watched counters2 1 4 3 0 7 (e.slice - 1))).sum = 10 := by
  rw [conserved counters2 1 4 right2_aux 3 (by omega) (by decide +kernel) 0 7 (by decide +kernel)]
  decide +kernel

example : (((slicerprvcounter counters2 5).filter (fun e => e.type = 7)).map (fun e => e.normalized)).sum = 1 :=
  normalized counters2 1 4 right2_aux 5 (by omega) (by decide +kernel) 0 7 ⟨0, 2, 5, 3, (7, 4)⟩ (by simp [readings, counters2, List.filter_cons]) (by norm_num)

theorem covers2_aux (s : Nat) (h : 2 ≤ (readings counters2 s 7).length) : Covers (1 : ℚ) (1 + 4) (pieces counters2 s 7) := by
  by_cases h0 : s = 0
  · subst h0
    rw [pieces2_aux.1]
    unfold Covers Covers Covers
    norm_num
  · by_cases h1 : s = 1
    · subst h1
      rw [pieces2_aux.2]
      unfold Covers Covers Covers
      norm_num
    · exfalso
      simp [readings, counters2, List.filter_cons, Ne.symm h0, Ne.symm h1] at h

example (e : SliceRow Nat Nat ℚ) (he : e ∈ slicerprvcounter counters2 4) (h7 : e.type = 7) :
    e.normalized = counted counters2 1 4 4 e.resource 7 (e.slice - 1) / 20 := by
  rw [share counters2 1 4 right2_aux 4 (by omega) (by decide +kernel) 7 covers2_aux e he h7,
    show countedAll counters2 7 = 20 by decide +kernel]

/-- The array: resource fastest, then type, then slice. -/
example : (pjdump2microC counters2 [] 2 false).map (fun m => (m.space, m.type, m.time, m.data.mem)) =
    .ok ([0, 1], [7], [1, 2], [3 / 10, 2 / 5, 1 / 5, 1 / 10]) := by
  decide +kernel

example (resources : List (Container Nat)) : ∃ m, pjdump2microC counters2 resources 4 false = .ok m := by
  obtain ⟨_, _, _, _, h, _⟩ := cube counters2 1 4 right2_aux resources 4 (by omega)
  exact ⟨_, h⟩

/-- The last reading of a counter has no successor: its interval is dropped, here the whole second half, and the second slice with it. -/
example : (slicerprvcounter ([⟨0, 0, 2, 2, (7, 1)⟩, ⟨0, 2, 4, 2, (7, 6)⟩] : List (TCounter Nat Nat ℚ)) 2).map
    (fun r => (r.resource, r.slice, r.type, r.sum)) = [(0, 1, 7, 3)] := by
  decide +kernel

/-- A negative mean becomes 0: nothing remains of the values -6 and 6. -/
example : (slicerprvcounter ([⟨0, 0, 2, 2, (7, 0)⟩, ⟨0, 2, 4, 2, (7, -6)⟩, ⟨0, 4, 4, 0, (7, 6)⟩] : List (TCounter Nat Nat ℚ)) 2).map
    (fun r => (r.slice, r.sum)) = [(1, 0), (2, 3)] := by
  decide +kernel

/-! ## The hypotheses are met by concrete inputs -/

example := aggregated (S := Nat) (Y := Nat) (exactLaws ℝ) 2147483647 (by norm_num) (1 / 16 : ℝ) (by norm_num [FloatP.toK]) (by norm_num [FloatP.toK])

end Lp.C55
