import Verif.Spec.Counter
import Verif.Proofs.Overlap
import Verif.Proofs.Micro

/-!
# `slicerprvcounter` computes means over the time slices
-/

namespace Lp
open Spec
variable {S Y K : Type} [LinearOrder S] [LinearOrder Y] [Field K] [LinearOrder K]
variable {trace : List (TCounter S Y K)} {first total : K} {n : Nat}

/-- The rows of counter `y` of `s`. -/
def ofCounter (s : S) (y : Y) (r : TCounter S Y K) : Bool := r.resource = s ∧ r.value.1 = y

theorem leadRows_shift (f : K) : ∀ l : List (TCounter S Y K), leadRows (shiftTrace l f) = shiftTrace (leadRows l) f
  | [] => rfl
  | r :: l => by
    have ih := leadRows_shift f l
    unfold shiftTrace at ih ⊢
    rw [List.map_cons, leadRows, leadRows, List.find?_map, ih]
    simp only [Function.comp_def]
    cases l.find? (fun x => decide (x.resource = r.resource ∧ x.value.1 = r.value.1)) with
    | none => rfl
    | some x => rfl

theorem rates_shift (f : K) (l : List (TCounter S Y K)) : rates (shiftTrace l f) = shiftTrace (rates l) f := by
  unfold rates shiftTrace
  rw [List.map_map, List.map_map]
  rfl

theorem leadRows_filter (s : S) (y : Y) : ∀ l : List (TCounter S Y K), (leadRows l).filter (ofCounter s y) =
    ((l.filter (ofCounter s y)).zip (l.filter (ofCounter s y)).tail).map (fun x => { x.1 with value := (x.1.value.1, x.2.value.2) })
  | [] => rfl
  | r :: l => by
    have ih := leadRows_filter s y l
    rw [leadRows]
    by_cases hc : ofCounter s y r = true
    · have hc' : r.resource = s ∧ r.value.1 = y := by simpa [ofCounter] using hc
      rw [List.filter_cons, if_pos hc]
      have hfind : l.find? (fun x => decide (x.resource = r.resource ∧ x.value.1 = r.value.1)) = (l.filter (ofCounter s y)).head? := by
        rw [List.head?_filter]
        congr 1
        funext x
        rw [hc'.1, hc'.2]
        rfl
      rw [hfind]
      cases h : l.filter (ofCounter s y) with
      | nil =>
        rw [h] at ih
        simpa [leadCons] using ih
      | cons x t =>
        rw [h] at ih
        have hx : ofCounter s y ({ r with value := (r.value.1, x.value.2) } : TCounter S Y K) = true := hc
        simp only [List.head?_cons, leadCons, List.filter_cons, hx, if_true, ih]
        simp
    · rw [List.filter_cons, if_neg hc, ← ih]
      cases l.find? (fun x => decide (x.resource = r.resource ∧ x.value.1 = r.value.1)) with
      | none => rfl
      | some x =>
        have hx : ¬ ofCounter s y ({ r with value := (r.value.1, x.value.2) } : TCounter S Y K) = true := hc
        simp only [leadCons]
        rw [List.filter_cons, if_neg hx]

theorem leadRows_mem {l : List (TCounter S Y K)} {r : TCounter S Y K} (h : r ∈ leadRows l) :
    ∃ a ∈ l, ∃ b ∈ l, a.resource = r.resource ∧ a.value.1 = r.value.1 ∧ a.start = r.start ∧ a.end = r.end ∧ a.duration = r.duration ∧
      b.value.2 = r.value.2 ∧ (r.start, r.end, r.value.2) ∈ pieces l r.resource r.value.1 := by
  have h1 : r ∈ (leadRows l).filter (ofCounter r.resource r.value.1) := List.mem_filter.mpr ⟨h, by simp [ofCounter]⟩
  rw [leadRows_filter] at h1
  obtain ⟨⟨a, b⟩, hab, e⟩ := List.mem_map.mp h1
  have ha := List.mem_filter.mp (List.of_mem_zip hab).1
  have hb := List.mem_filter.mp (List.mem_of_mem_tail (List.of_mem_zip hab).2)
  refine ⟨a, ha.1, b, hb.1, ?_, ?_, ?_, ?_, ?_, ?_, ?_⟩
  · rw [← e]
  · rw [← e]
  · rw [← e]
  · rw [← e]
  · rw [← e]
  · rw [← e]
  · unfold pieces readings
    refine List.mem_map.mpr ⟨(a, b), ?_, by rw [← e]⟩
    exact hab

/-- Sums over the rows of a counter are sums over its pieces. -/
theorem sum_rates (hd : ∀ r ∈ trace, r.duration = r.end - r.start) (s : S) (y : Y) (g : K → K → K → K) :
    (((rates (leadRows trace)).filter (ofCounter s y)).map (fun r => g r.start r.end r.value.2)).sum =
      ((pieces trace s y).map (fun x => g x.1 x.2.1 (x.2.2 / (x.2.1 - x.1)))).sum := by
  have h1 : (rates (leadRows trace)).filter (ofCounter s y) = rates ((leadRows trace).filter (ofCounter s y)) := by
    unfold rates
    rw [List.filter_map]
    rfl
  rw [h1, leadRows_filter]
  unfold rates pieces readings
  rw [List.map_map, List.map_map, List.map_map]
  congr 1
  apply List.map_congr_left
  rintro ⟨a, b⟩ hab
  have ha := List.mem_filter.mp (List.of_mem_zip hab).1
  simp only [Function.comp]
  rw [hd a ha.1]

theorem mem_rates {r : TCounter S Y K} : r ∈ rates (leadRows trace) ↔
    ∃ r0 ∈ leadRows trace, r = { r0 with value := (r0.value.1, r0.value.2 / r0.duration) } := by
  unfold rates
  rw [List.mem_map]
  exact ⟨fun ⟨a, h, e⟩ => ⟨a, h, e.symm⟩, fun ⟨a, h, e⟩ => ⟨a, h, e.symm⟩⟩

theorem rates_measured (ht : RightCounters trace first total) : Measured (rates (leadRows trace)) total := by
  refine ⟨?_, ?_, ht.pos⟩
  · intro r hr
    obtain ⟨r0, h0, rfl⟩ := mem_rates.mp hr
    obtain ⟨a, ha, _, _, _, _, e1, e2, e3, _⟩ := leadRows_mem h0
    have := ht.duration a ha
    rw [e1, e2, e3] at this
    exact this
  · intro r hr
    obtain ⟨r0, h0, rfl⟩ := mem_rates.mp hr
    obtain ⟨a, ha, _, _, _, _, e1, e2, e3, _, hp⟩ := leadRows_mem h0
    exact (ht.length _ _ _ hp).le

variable [IsStrictOrderedRing K]

theorem overlap_pos {a b c d : K} (hab : a < b) (hcd : c < d) : 0 < overlap a b c d ↔ c < b ∧ a < d := by
  constructor
  · intro h
    by_contra hc
    rw [overlap_zero hc] at h
    exact lt_irrefl _ h
  · rintro ⟨h1, h2⟩
    unfold overlap
    apply lt_max_of_lt_right
    rw [sub_pos]
    apply max_lt <;> apply lt_min <;> assumption

theorem slice_lt (hp : 0 < total) {k : Nat} (hk : k < n) : sliceAt first total n k < sliceAt first total n (k + 1) := by
  have := sliceAt_width (first := first) (total := total) n k
  have h : 0 < total / (n : K) := div_pos hp (by exact_mod_cast (by omega : 0 < n))
  linarith

/-- The mean of the code. -/
theorem weighted_mean (ht : RightCounters trace first total) {s : S} {y : Y} {k : Nat} (hk : k < n) :
    let g := (timed (joined total (shiftTrace (rates (leadRows trace)) first) n)).filter (fun x =>
      keyC x = (s, (sl total n k).id, y, (sl total n k).tsStart, (sl total n k).tsEnd))
    (g.map (fun x => x.1.1.value.2 * x.2)).sum = counted trace first total n s y k ∧
      (g.map Prod.snd).sum = watched trace first total n s y k := by
  have hm := rates_measured ht
  have hcond : ∀ (r : TCounter S Y K) k' v, decide (keyC ((sh first r, sl total n k'), v) =
      (s, (sl total n k).id, y, (sl total n k).tsStart, (sl total n k).tsEnd)) = true ↔ k' = k ∧ ofCounter s y r = true := by
    intro r k' v
    simp only [decide_eq_true_eq, keyC, Prod.mk.injEq, ofCounter]
    constructor
    · rintro ⟨a, b, c, _⟩
      exact ⟨by simpa [sl] using b, a, c⟩
    · rintro ⟨rfl, a, c⟩
      exact ⟨a, rfl, c, rfl, rfl⟩
  constructor
  · rw [timed_sum_gen (first := first) hm hk (ofCounter s y) (fun r v => r.value.2 * v) (fun r => mul_zero _) _ hcond]
    unfold counted
    refine (sum_rates (K := K) ht.duration s y
      (fun a b v => v * overlap a b (sliceAt first total n k) (sliceAt first total n (k + 1)))).trans ?_
    congr 1
    apply List.map_congr_left
    intro x _
    ring
  · rw [timed_sum_gen (first := first) hm hk (ofCounter s y) (fun r v => v) (fun r => rfl) _ hcond]
    unfold watched
    rw [← sum_rates (K := K) ht.duration s y (fun a b v => overlap a b (sliceAt first total n k) (sliceAt first total n (k + 1)))]

theorem watched_nonneg (s : S) (y : Y) (k : Nat) : 0 ≤ watched trace first total n s y k := by
  unfold watched
  apply List.sum_nonneg
  intro x hx
  obtain ⟨r, _, rfl⟩ := List.mem_map.mp hx
  exact overlap_nonneg _ _ _ _

theorem watched_pos {s : S} {y : Y} {k : Nat} : 0 < watched trace first total n s y k ↔
    ∃ x ∈ pieces trace s y, 0 < overlap x.1 x.2.1 (sliceAt first total n k) (sliceAt first total n (k + 1)) := by
  constructor
  · intro h
    by_contra hc
    have : watched trace first total n s y k = 0 := by
      unfold watched
      apply List.sum_eq_zero
      intro v hv
      obtain ⟨x, hx, rfl⟩ := List.mem_map.mp hv
      exact le_antisymm (not_lt.mp (fun h => hc ⟨x, hx, h⟩)) (overlap_nonneg _ _ _ _)
    rw [this] at h
    exact lt_irrefl _ h
  · rintro ⟨x, hx, h⟩
    refine lt_of_lt_of_le h ?_
    unfold watched
    apply List.single_le_sum
    · intro v hv
      obtain ⟨x, hx, rfl⟩ := List.mem_map.mp hv
      exact overlap_nonneg _ _ _ _
    · exact List.mem_map.mpr ⟨x, hx, rfl⟩

/-- The rows of the counter that overlap the slice. -/
theorem touches_iff (ht : RightCounters trace first total) {s : S} {y : Y} {k : Nat} :
    (∃ r ∈ rates (leadRows trace), r.resource = s ∧ r.value.1 = y ∧ Touches first total n r k) ↔
      k < n ∧ 0 < watched trace first total n s y k := by
  rw [watched_pos]
  constructor
  · rintro ⟨r, hr, rfl, rfl, hk, h1, h2⟩
    obtain ⟨r0, h0, rfl⟩ := mem_rates.mp hr
    obtain ⟨a, ha, _, _, _, _, e1, e2, e3, _, hp⟩ := leadRows_mem h0
    exact ⟨hk, _, hp, (overlap_pos (ht.length _ _ _ hp) (slice_lt ht.pos hk)).mpr ⟨h1, h2⟩⟩
  · rintro ⟨hk, x, hx, h⟩
    obtain ⟨h1, h2⟩ := (overlap_pos (ht.length _ _ _ hx) (slice_lt ht.pos hk)).mp h
    unfold pieces readings at hx
    obtain ⟨⟨a, b⟩, hab, rfl⟩ := List.mem_map.mp hx
    have ha := List.mem_filter.mp (List.of_mem_zip hab).1
    have hm : ({ a with value := (a.value.1, b.value.2) } : TCounter S Y K) ∈ (leadRows trace).filter (ofCounter s y) := by
      rw [leadRows_filter]
      exact List.mem_map.mpr ⟨(a, b), hab, rfl⟩
    have hc : a.resource = s ∧ a.value.1 = y := by simpa using ha.2
    exact ⟨_, mem_rates.mpr ⟨_, (List.mem_filter.mp hm).1, rfl⟩, hc.1, hc.2, hk, h1, h2⟩

/-- The rows of `m`. -/
theorem mem_weighted (ht : RightCounters trace first total) {e : SliceRow S Y K} :
    e ∈ weighted (timed (joined total (shiftTrace (rates (leadRows trace)) first) n)) ↔
      ∃ s y k, k < n ∧ 0 < watched trace first total n s y k ∧ e = ⟨s, k + 1, y, (sl total n k).tsStart, (sl total n k).tsEnd,
        counted trace first total n s y k / watched trace first total n s y k,
        counted trace first total n s y k / watched trace first total n s y k⟩ := by
  have hm := rates_measured ht
  unfold weighted
  rw [List.mem_map]
  constructor
  · rintro ⟨g, hg, rfl⟩
    obtain ⟨⟨x, hx, hk⟩, h2⟩ := mem_groupRows.mp hg
    obtain ⟨r, hr, k, htch, hx1⟩ := mem_timed hm hx
    have hg1 : g.1 = (r.resource, (sl total n k).id, r.value.1, (sl total n k).tsStart, (sl total n k).tsEnd) := by
      rw [← hk]; unfold keyC; rw [hx1]; rfl
    obtain ⟨h3, h4⟩ := (touches_iff ht).mp ⟨r, hr, rfl, rfl, htch⟩
    refine ⟨r.resource, r.value.1, k, h3, h4, ?_⟩
    obtain ⟨w1, w2⟩ := weighted_mean (s := r.resource) (y := r.value.1) ht htch.1
    dsimp only
    rw [h2, hg1, w1, w2]
    rfl
  · rintro ⟨s, y, k, h3, h4, rfl⟩
    obtain ⟨r, hr, rfl, rfl, htch⟩ := (touches_iff ht).mpr ⟨h3, h4⟩
    obtain ⟨v, hv⟩ := timed_mem hm hr htch
    refine ⟨(keyC ((sh first r, sl total n k), v), (timed (joined total (shiftTrace (rates (leadRows trace)) first) n)).filter
      (fun x => keyC x = keyC ((sh first r, sl total n k), v))), mem_groupRows.mpr ⟨⟨_, hv, rfl⟩, rfl⟩, ?_⟩
    obtain ⟨w1, w2⟩ := weighted_mean (s := r.resource) (y := r.value.1) ht htch.1
    have e : keyC ((sh first r, sl total n k), v) = (r.resource, (sl total n k).id, r.value.1, (sl total n k).tsStart, (sl total n k).tsEnd) := rfl
    rw [e]
    dsimp only
    rw [w1, w2]
    rfl

theorem counted_unwatched {s : S} {y : Y} {k : Nat} (h : ¬ 0 < watched trace first total n s y k) :
    counted trace first total n s y k = 0 := by
  unfold counted
  apply List.sum_eq_zero
  intro v hv
  obtain ⟨x, hx, rfl⟩ := List.mem_map.mp hv
  have : overlap x.1 x.2.1 (sliceAt first total n k) (sliceAt first total n (k + 1)) = 0 :=
    le_antisymm (not_lt.mp (fun h' => h (watched_pos.mpr ⟨x, hx, h'⟩))) (overlap_nonneg _ _ _ _)
  rw [this, zero_div, mul_zero]

theorem pieces_nonempty {s : S} {y : Y} : pieces trace s y ≠ [] ↔ 2 ≤ (readings trace s y).length := by
  unfold pieces
  rw [← List.length_pos_iff]
  simp
  omega

/-- A counter with two readings is known during some slice. -/
theorem watched_some (ht : RightCounters trace first total) (hn : 0 < n) {s : S} {y : Y} :
    (∃ k, k < n ∧ 0 < watched trace first total n s y k) ↔ 2 ≤ (readings trace s y).length := by
  rw [← pieces_nonempty]
  constructor
  · rintro ⟨k, _, h⟩ e
    obtain ⟨x, hx, _⟩ := watched_pos.mp h
    rw [e] at hx
    cases hx
  · intro h
    obtain ⟨x, hx⟩ := List.exists_mem_of_ne_nil _ h
    by_contra hc
    have hx' := hx
    unfold pieces readings at hx'
    obtain ⟨⟨a, b⟩, hab, rfl⟩ := List.mem_map.mp hx'
    have ha := (List.mem_filter.mp (List.of_mem_zip hab).1).1
    have hlt := ht.length _ _ _ hx
    dsimp only at hlt
    have h1 := overlap_slices (first := first) (n := n) ht.pos hlt.le n
    rw [sliceAt_last hn, overlap_within hlt.le (ht.firstLe a ha) (ht.lastLe a ha)] at h1
    have h2 : ∑ k ∈ Finset.range n, overlap a.start a.end (sliceAt first total n k) (sliceAt first total n (k + 1)) = 0 := by
      apply Finset.sum_eq_zero
      intro k hk
      exact le_antisymm (not_lt.mp (fun h => hc ⟨k, Finset.mem_range.mp hk, watched_pos.mpr ⟨_, hx, h⟩⟩)) (overlap_nonneg _ _ _ _)
    rw [h2] at h1
    linarith

/-- The result before the last line. -/
theorem counters_filled (ht : RightCounters trace first total) (hn : 0 < n) :
    ∃ o, slicerprvcounter trace n = shares o ∧ meanRows trace n = o ∧ ∃ last, last ≤ n ∧
      (∀ s y k, k < n → 0 < watched trace first total n s y k → k < last) ∧
      (last = 0 ∨ ∃ s y, 0 < watched trace first total n s y (last - 1)) ∧
      (o.map (fun r => (r.resource, r.slice, r.type))).Nodup ∧
      ∀ s k y v w, (∃ e ∈ o, e.resource = s ∧ e.slice = k ∧ e.type = y ∧ e.sum = v ∧ e.normalized = w) ↔
        (∃ y', 2 ≤ (readings trace s y').length) ∧ (∃ s', 2 ≤ (readings trace s' y).length) ∧
        1 ≤ k ∧ k ≤ last ∧ v = meanIn trace first total n s y (k - 1) ∧ w = meanIn trace first total n s y (k - 1) := by
  have e1 : rMin (trace.map (fun r => r.start)) = first := by
    apply rMin_eq
    · obtain ⟨r, hr, e⟩ := ht.firstEx
      exact List.mem_map.mpr ⟨r, hr, e⟩
    · intro x hx
      obtain ⟨r, hr, rfl⟩ := List.mem_map.mp hx
      exact ht.firstLe r hr
  have e2 : rMax ((shiftTrace trace first).map (fun r => r.end)) = total := by
    unfold shiftTrace
    rw [List.map_map]
    apply rMax_eq
    · obtain ⟨r, hr, e⟩ := ht.lastEx
      exact List.mem_map.mpr ⟨r, hr, by simp only [Function.comp]; rw [e]; ring⟩
    · intro x hx
      obtain ⟨r, hr, rfl⟩ := List.mem_map.mp hx
      have := ht.lastLe r hr
      simp only [Function.comp]
      linarith
  unfold slicerprvcounter meanRows
  dsimp only
  rw [e1, e2, leadRows_shift, rates_shift]
  refine ⟨_, rfl, rfl, ?_⟩
  have hm := fun e => mem_weighted (n := n) ht (e := e)
  generalize weighted (timed (joined total (shiftTrace (rates (leadRows trace)) first) n)) = m at hm
  have hres : ∀ s, (∃ r ∈ m, r.resource = s) ↔ ∃ y', 2 ≤ (readings trace s y').length := by
    intro s
    constructor
    · rintro ⟨e, he, rfl⟩
      obtain ⟨s, y, k, hk, h, rfl⟩ := (hm e).mp he
      exact ⟨y, (watched_some ht hn).mp ⟨k, hk, h⟩⟩
    · rintro ⟨y, h⟩
      obtain ⟨k, hk, h⟩ := (watched_some ht hn).mpr h
      exact ⟨_, (hm _).mpr ⟨s, y, k, hk, h, rfl⟩, rfl⟩
  have htyp : ∀ y, (∃ r ∈ m, r.type = y) ↔ ∃ s', 2 ≤ (readings trace s' y).length := by
    intro y
    constructor
    · rintro ⟨e, he, rfl⟩
      obtain ⟨s, y, k, hk, h, rfl⟩ := (hm e).mp he
      exact ⟨s, (watched_some ht hn).mp ⟨k, hk, h⟩⟩
    · rintro ⟨s, h⟩
      obtain ⟨k, hk, h⟩ := (watched_some ht hn).mpr h
      exact ⟨_, (hm _).mpr ⟨s, y, k, hk, h, rfl⟩, rfl⟩
  have hlast : ∀ s y k, k < n → 0 < watched trace first total n s y k → k < lastOf m := by
    intro s y k hk h
    exact lastOf_le ((hm _).mpr ⟨s, y, k, hk, h, rfl⟩)
  have hlast2 : lastOf m = 0 ∨ ∃ s y, lastOf m - 1 < n ∧ 0 < watched trace first total n s y (lastOf m - 1) := by
    rcases foldl_max_mem (m.map (fun r => r.slice)) 0 with h | h
    · exact .inl h
    · right
      obtain ⟨e, he, h⟩ := List.mem_map.mp h
      obtain ⟨s, y, k, hk, hw, rfl⟩ := (hm e).mp he
      refine ⟨s, y, ?_⟩
      have : lastOf m - 1 = k := by
        have h : k + 1 = lastOf m := h
        omega
      rw [this]; exact ⟨hk, hw⟩
  have hfill := filled_spec (m := m) (fun s k y => counted trace first total n s y (k - 1) / watched trace first total n s y (k - 1))
    (fun s k y => counted trace first total n s y (k - 1) / watched trace first total n s y (k - 1)) (by
      intro e he
      obtain ⟨s, y, k, hk, h, rfl⟩ := (hm e).mp he
      exact ⟨by simp, rfl, rfl⟩) (by
      intro s k y h1 h2 hno
      have hk : k - 1 < n := by
        rcases hlast2 with h | ⟨s', y', hk', _⟩
        · omega
        · omega
      have h0 : counted trace first total n s y (k - 1) = 0 := by
        apply counted_unwatched
        intro hw
        refine hno _ ((hm _).mpr ⟨s, y, k - 1, hk, hw, rfl⟩) ?_
        simp only [key3, Prod.mk.injEq, true_and, and_true]
        omega
      rw [h0, zero_div]
      exact ⟨rfl, rfl⟩)
  refine ⟨lastOf m, ?_, hlast, ?_, hfill.1, ?_⟩
  · rcases hlast2 with h | ⟨s', y', hk', _⟩
    · omega
    · omega
  · rcases hlast2 with h | ⟨s', y', _, h⟩
    · exact .inl h
    · exact .inr ⟨s', y', h⟩
  · intro s k y v w
    rw [hfill.2, hres, htyp]
    rfl

/-- Adding up the pieces of a counter in the slices. -/
theorem counted_sum (ht : RightCounters trace first total) (hn : 0 < n) (s : S) (y : Y) :
    ∑ k ∈ Finset.range n, counted trace first total n s y k = ((pieces trace s y).map (fun x => x.2.2)).sum := by
  unfold counted
  rw [sum_list_finset]
  congr 1
  apply List.map_congr_left
  intro x hx
  have hlt := ht.length _ _ _ hx
  rw [← Finset.mul_sum, ← Finset.sum_div, overlap_slices ht.pos hlt.le]
  unfold pieces readings at hx
  obtain ⟨⟨a, b⟩, hab, rfl⟩ := List.mem_map.mp hx
  have ha := (List.mem_filter.mp (List.of_mem_zip hab).1).1
  dsimp only at hlt ⊢
  rw [sliceAt_last hn, overlap_within hlt.le (ht.firstLe a ha) (ht.lastLe a ha), div_self (by linarith), mul_one]

theorem pieces_values (s : S) (y : Y) : (pieces trace s y).map (fun x => x.2.2) = (readings trace s y).tail.map (fun r => r.value.2) := by
  unfold pieces
  rw [List.map_map]
  have : ((fun x : K × K × K => x.2.2) ∘ fun x : TCounter S Y K × TCounter S Y K => (x.1.start, x.1.end, x.2.value.2)) =
      (fun r : TCounter S Y K => r.value.2) ∘ Prod.snd := rfl
  rw [this, ← List.map_map, List.map_snd_zip]
  simp

theorem Spec.Covers.le : ∀ {L : List (K × K × K)} {a b : K}, Covers a b L → a ≤ b
  | [], _, _, h => le_of_eq h
  | _ :: _, _, _, ⟨h1, h2, h3⟩ => h1 ▸ h2.trans h3.le

theorem Spec.Covers.sum : ∀ {L : List (K × K × K)} {a b c d : K}, Covers a b L → c ≤ d →
    (L.map (fun x => overlap x.1 x.2.1 c d)).sum = overlap a b c d
  | [], a, b, c, d, h, hcd => by
    have h : a = b := h
    subst h
    rw [overlap_empty hcd]; rfl
  | r :: L, a, b, c, d, ⟨h1, h2, h3⟩, hcd => by
    rw [List.map_cons, List.sum_cons, h3.sum hcd, h1]
    rw [h1] at h2
    exact overlap_split' h2 h3.le hcd

/-- A counter that is always known. -/
theorem watched_full (hp : 0 < total) (hn : 0 < n) {s : S} {y : Y} (hc : Covers first (first + total) (pieces trace s y)) {k : Nat}
    (hk : k < n) : watched trace first total n s y k = total / (n : K) := by
  have h1 := sliceAt_mono (first := first) hp n (Nat.le_succ k)
  have h0 := sliceAt_mono (first := first) hp n (Nat.zero_le k)
  have h2 := sliceAt_mono (first := first) hp n (show k + 1 ≤ n from hk)
  rw [sliceAt_zero] at h0
  rw [sliceAt_last hn] at h2
  unfold watched
  rw [hc.sum h1, overlap_around h1 h0 h2, sliceAt_width]

end Lp
