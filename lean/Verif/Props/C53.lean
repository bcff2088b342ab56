import Verif.Proofs.Micro
import Verif.Proofs.Overlap
import Verif.Props.C52

/-!
# C53 — from a trace of states to the shares of time slices

`slicerstate(trace, n)` cuts the time of a trace into `n` equal slices; `pjdump2micro(trace, n, "State", FALSE)` arranges the
result as an array.  `timeIn trace first total n s y k` (`Spec/Slicing.lean`) is the time that resource `s` spends in states `y`
during slice `k` (counted from 0).
-/

namespace Lp.C53
open Spec

section
variable {S Y K : Type} [DecidableEq S] [DecidableEq Y] [Field K] [LinearOrder K] [IsStrictOrderedRing K]

/-- The result has exactly one row for each resource with a state that overlaps a slice, each value of such a state and each slice
up to the last one that a state overlaps: `Sum` is the time spent, `Normalized` its share of the whole time. -/
theorem rows (trace : List (TState S Y K)) (first total : K) (ht : RightTrace trace first total) (n : Nat) :
    ∃ last, last ≤ n ∧ (∀ r ∈ trace, ∀ k, Touches first total n r k → k < last) ∧
      (last = 0 ∨ ∃ r ∈ trace, Touches first total n r (last - 1)) ∧
      ((slicerstate trace n).map (fun r => (r.resource, r.slice, r.type))).Nodup ∧
      ∀ s k y v w, (∃ e ∈ slicerstate trace n, e.resource = s ∧ e.slice = k ∧ e.type = y ∧ e.sum = v ∧ e.normalized = w) ↔
        (∃ r ∈ trace, r.resource = s ∧ ∃ k, Touches first total n r k) ∧ (∃ r ∈ trace, r.value = y ∧ ∃ k, Touches first total n r k) ∧
        1 ≤ k ∧ k ≤ last ∧ v = timeIn trace first total n s y (k - 1) ∧ w = timeIn trace first total n s y (k - 1) / total :=
  slicerstate_spec ht

theorem range_sum_aux (m : Nat) (g : Nat → K) : ((List.range m).map g).sum = ∑ k ∈ Finset.range m, g k := by
  induction m with
  | zero => simp
  | succ m ih => rw [List.range_succ, List.map_append, List.sum_append, ih, Finset.sum_range_succ]; simp

theorem sum_aux {A : Type} {out : List (SliceRow S Y K)} {key : SliceRow S Y K → A} {ks : List A}
    {g : A → K} {val : SliceRow S Y K → K} (nd : (out.map key).Nodup) (nk : ks.Nodup)
    (h : ∀ a v, (∃ e ∈ out, key e = a ∧ val e = v) ↔ a ∈ ks ∧ v = g a) : (out.map val).sum = (ks.map g).sum := by
  have hp : (out.map (fun e => (key e, val e))).Perm (ks.map (fun a => (a, g a))) := by
    rw [List.perm_ext_iff_of_nodup]
    · rintro ⟨a, v⟩
      simp only [List.mem_map, Prod.mk.injEq]
      rw [h]
      constructor
      · rintro ⟨h1, h2⟩; exact ⟨a, h1, rfl, h2.symm⟩
      · rintro ⟨_, h1, rfl, h2⟩; exact ⟨h1, h2.symm⟩
    · exact List.Nodup.of_map Prod.fst (by rw [List.map_map]; exact nd)
    · exact List.Nodup.of_map Prod.fst (by rw [List.map_map]; simpa [Function.comp_def] using nk)
  have := (hp.map Prod.snd).sum_eq
  rw [List.map_map, List.map_map] at this
  exact this

theorem nodup_aux {A B : Type} {out : List (SliceRow S Y K)} {key : SliceRow S Y K → A} {key' : SliceRow S Y K → B}
    {c : SliceRow S Y K → Bool} (nd : (out.map key').Nodup)
    (h : ∀ e ∈ out, ∀ e' ∈ out, c e = true → c e' = true → key e = key e' → key' e = key' e') : ((out.filter c).map key).Nodup := by
  apply List.Nodup.map_on
  · intro e he e' he' hk
    obtain ⟨h1, h2⟩ := List.mem_filter.mp he
    obtain ⟨h1', h2'⟩ := List.mem_filter.mp he'
    exact List.inj_on_of_nodup_map nd h1 h1' (h e h1 e' h1' h2 h2' hk)
  · exact (List.Nodup.of_map _ nd).filter _

/-- Nothing is lost: for each resource and value the `Sum` column adds up to the durations of the states. -/
theorem conserved (trace : List (TState S Y K)) (first total : K) (ht : RightTrace trace first total) (n : Nat) (hn : 0 < n)
    (s : S) (y : Y) (hs : ∃ e ∈ slicerstate trace n, e.resource = s) (hy : ∃ e ∈ slicerstate trace n, e.type = y) :
    (((slicerstate trace n).filter (fun e => e.resource = s ∧ e.type = y)).map (fun e => e.sum)).sum =
      ((trace.filter (fun r => r.resource = s ∧ r.value = y)).map (fun r => r.duration)).sum := by
  obtain ⟨last, hle, hlast, _, nd, mem⟩ := slicerstate_spec (n := n) ht
  obtain ⟨e, he, rfl⟩ := hs
  obtain ⟨e', he', rfl⟩ := hy
  have a1 := ((mem _ _ _ _ _).mp ⟨e, he, rfl, rfl, rfl, rfl, rfl⟩).1
  have a2 := ((mem _ _ _ _ _).mp ⟨e', he', rfl, rfl, rfl, rfl, rfl⟩).2.1
  rw [← timeIn_sum ht hn]
  rw [sum_aux (key := fun e => e.slice) (ks := (List.range last).map (· + 1))
    (g := fun k => timeIn trace first total n e.resource e'.type (k - 1))]
  · rw [List.map_map]
    simp only [Function.comp_def, Nat.add_sub_cancel]
    rw [range_sum_aux]
    apply Finset.sum_subset
    · intro k hk
      rw [Finset.mem_range] at *
      omega
    · intro k h1 h2
      rw [Finset.mem_range] at *
      exact timeIn_zero hlast _ _ h1 (by omega)
  · apply nodup_aux nd
    intro x hx x' hx' h1 h2 h3
    rw [decide_eq_true_eq] at h1 h2
    rw [h1.1, h1.2, h2.1, h2.2, h3]
  · rw [List.nodup_map_iff (fun a b h => by simpa using h)]
    exact List.nodup_range
  · intro k v
    constructor
    · rintro ⟨x, hx, rfl, rfl⟩
      obtain ⟨hx, hc⟩ := List.mem_filter.mp hx
      rw [decide_eq_true_eq] at hc
      obtain ⟨_, _, h1, h2, h3, _⟩ := (mem _ _ _ _ _).mp ⟨x, hx, rfl, rfl, rfl, rfl, rfl⟩
      refine ⟨List.mem_map.mpr ⟨x.slice - 1, List.mem_range.mpr (by omega), by omega⟩, ?_⟩
      rw [h3, hc.1, hc.2]
    · rintro ⟨hk, rfl⟩
      obtain ⟨k, hk', rfl⟩ := List.mem_map.mp hk
      rw [List.mem_range] at hk'
      obtain ⟨x, hx, b1, b2, b3, b4, _⟩ := (mem e.resource (k + 1) e'.type _ _).mpr ⟨a1, a2, by omega, by omega, rfl, rfl⟩
      exact ⟨x, List.mem_filter.mpr ⟨hx, by rw [decide_eq_true_eq]; exact ⟨b1, b3⟩⟩, b2, b4⟩

/-- If a resource is always in exactly one state, its shares in each of the `n` slices add up to `1/n`. -/
theorem full (trace : List (TState S Y K)) (first total : K) (ht : RightTrace trace first total) (n : Nat) (s : S)
    (L : List (TState S Y K)) (hL : Consecutive first (first + total) L) (hp : L.Perm (trace.filter (fun r => r.resource = s)))
    (k : Nat) (h1 : 1 ≤ k) (h2 : k ≤ n) :
    (((slicerstate trace n).filter (fun e => e.resource = s ∧ e.slice = k)).map (fun e => e.normalized)).sum = 1 / (n : K) := by
  obtain ⟨last, hle, hlast, _, nd, mem⟩ := slicerstate_spec (n := n) ht
  have hn : 0 < n := by omega
  obtain ⟨r0, hr0, ht0⟩ := hL.touches hn ht.pos (by have := ht.pos; linarith)
  obtain ⟨hr0, hs0⟩ := List.mem_filter.mp (hp.mem_iff.mp hr0)
  rw [decide_eq_true_eq] at hs0
  have hln := hlast _ hr0 _ ht0
  classical
  let ys := ((slicerstate trace n).map (fun e => e.type)).dedup
  have hys : ∀ y, y ∈ ys ↔ ∃ r ∈ trace, r.value = y ∧ ∃ k, Touches first total n r k := by
    intro y
    simp only [ys, List.mem_dedup, List.mem_map]
    constructor
    · rintro ⟨e, he, rfl⟩
      exact ((mem _ _ _ _ _).mp ⟨e, he, rfl, rfl, rfl, rfl, rfl⟩).2.1
    · intro h
      obtain ⟨e, he, _, _, h3, _⟩ := (mem s k y _ _).mpr ⟨⟨r0, hr0, hs0, _, ht0⟩, h, h1, by omega, rfl, rfl⟩
      exact ⟨e, he, h3⟩
  have e1 : (((slicerstate trace n).filter (fun e => e.resource = s ∧ e.slice = k)).map (fun e => e.normalized)).sum =
      (ys.map (fun y => timeIn trace first total n s y (k - 1) / total)).sum := by
    apply sum_aux (key := fun e => e.type)
    · apply nodup_aux nd
      intro x hx x' hx' h1 h2 h3
      rw [decide_eq_true_eq] at h1 h2
      rw [h1.1, h1.2, h2.1, h2.2, h3]
    · exact List.nodup_dedup _
    · intro y v
      constructor
      · rintro ⟨x, hx, rfl, rfl⟩
        obtain ⟨hx, hc⟩ := List.mem_filter.mp hx
        rw [decide_eq_true_eq] at hc
        obtain ⟨_, b1, _, _, _, b2⟩ := (mem _ _ _ _ _).mp ⟨x, hx, rfl, rfl, rfl, rfl, rfl⟩
        refine ⟨(hys _).mpr b1, ?_⟩
        rw [b2, hc.1, hc.2]
      · rintro ⟨hy, rfl⟩
        obtain ⟨x, hx, b1, b2, b3, _, b4⟩ := (mem s k y _ _).mpr ⟨⟨r0, hr0, hs0, _, ht0⟩, (hys y).mp hy, h1, by omega, rfl, rfl⟩
        exact ⟨x, List.mem_filter.mpr ⟨hx, by rw [decide_eq_true_eq]; exact ⟨b1, b2⟩⟩, b3, b4⟩
  rw [e1]
  have e2 := timeIn_full ht hn (ys := ys) (List.nodup_dedup _) (s := s) (k := k - 1) (by omega)
    (fun r hr k hk => (hys _).mpr ⟨r, hr, rfl, k, hk⟩) hL hp
  have e3 : (ys.map (fun y => timeIn trace first total n s y (k - 1) / total)).sum =
      (ys.map (fun y => timeIn trace first total n s y (k - 1))).sum / total := by
    simp only [div_eq_mul_inv]
    rw [List.sum_map_mul_right]
  rw [e3, e2]
  have := ht.pos.ne'
  field_simp

/-- All the slices that were asked for are there if a state of positive length ends with the trace. -/
theorem slices (trace : List (TState S Y K)) (first total : K) (ht : RightTrace trace first total) (n : Nat)
    (r : TState S Y K) (hr : r ∈ trace) (hlen : r.start < r.end) (hend : r.end = first + total) (k : Nat) (h1 : 1 ≤ k) (h2 : k ≤ n) :
    ∃ e ∈ slicerstate trace n, e.slice = k ∧ e.resource = r.resource ∧ e.type = r.value := by
  obtain ⟨last, hle, hlast, _, nd, mem⟩ := slicerstate_spec (n := n) ht
  have hn : 0 < n := by omega
  have h0 : Touches first total n r (n - 1) := by
    obtain ⟨r', hr', h⟩ := Spec.Consecutive.touches (L := [r]) (n := n) (total := total) (first := first) (a := r.start) hn ht.pos
      (by rw [← hend]; exact hlen) ⟨rfl, hlen.le, hend⟩
    rw [List.mem_singleton.mp hr'] at h
    exact h
  have := hlast r hr _ h0
  obtain ⟨e, he, b1, b2, b3, _⟩ := (mem r.resource k r.value _ _).mpr ⟨⟨r, hr, rfl, _, h0⟩, ⟨r, hr, rfl, _, h0⟩, h1, by omega, rfl, rfl⟩
  exact ⟨e, he, b2, b1, b3⟩

end

section
variable {S Y K : Type} [LinearOrder S] [LinearOrder Y] [Field K] [LinearOrder K] [IsStrictOrderedRing K]

/-- `pjdump2micro` without hierarchy: an array with the resources, the values and the slices in order, whose cells are the
shares.  It never fails. -/
theorem cube (trace : List (TState S Y K)) (first total : K) (ht : RightTrace trace first total) (resources : List (Container S))
    (n : Nat) :
    ∃ (last : Nat) (space : List S) (type : List Y) (f : Nat × Nat × Nat → K),
      pjdump2micro trace resources n false =
        .ok ⟨space, type, (List.range last).map (· + 1), rArray space.length type.length last f, [], [0]⟩ ∧
      last ≤ n ∧ (∀ r ∈ trace, ∀ k, Touches first total n r k → k < last) ∧
      (last = 0 ∨ ∃ r ∈ trace, Touches first total n r (last - 1)) ∧
      space.Pairwise (· < ·) ∧ (∀ s, s ∈ space ↔ ∃ r ∈ trace, r.resource = s ∧ ∃ k, Touches first total n r k) ∧
      type.Pairwise (· < ·) ∧ (∀ y, y ∈ type ↔ ∃ r ∈ trace, r.value = y ∧ ∃ k, Touches first total n r k) ∧
      ∀ (i j k : Nat) (s : S) (y : Y), space[i]? = some s → type[j]? = some y → k < last →
        f (i, j, k) = timeIn trace first total n s y k / total := by
  obtain ⟨last, space, type, f, h1, h2, h3, h4, h5, h6, h7, h8, h9⟩ := pjdump2micro_spec (n := n) ht resources false
  exact ⟨last, space, type, f, h9, h1, h2, h3, h4, fun s => (h6 s).trans ⟨fun h => h.1, fun h => ⟨h, by simp⟩⟩, h5, h7, h8⟩

theorem determined_aux {t1 t2 : List (TState S Y K)} {f1 f2 d1 d2 : K} {n : Nat} (h1 : RightTrace t1 f1 d1) (h2 : RightTrace t2 f2 d2)
    (ht : ∀ s y k, (∃ r ∈ t1, r.resource = s ∧ r.value = y ∧ Touches f1 d1 n r k) ↔
      ∃ r ∈ t2, r.resource = s ∧ r.value = y ∧ Touches f2 d2 n r k)
    (hv : ∀ s y k, timeIn t1 f1 d1 n s y k / d1 = timeIn t2 f2 d2 n s y k / d2)
    (resources : List (Container S)) (enable : Bool) :
    pjdump2micro t1 resources n enable = pjdump2micro t2 resources n enable := by
  obtain ⟨l1, s1, y1, g1, a1, a2, a3, a4, a5, a6, a7, a8, a9⟩ := pjdump2micro_spec (n := n) h1 resources enable
  obtain ⟨l2, s2, y2, g2, b1, b2, b3, b4, b5, b6, b7, b8, b9⟩ := pjdump2micro_spec (n := n) h2 resources enable
  have es : s1 = s2 := by
    apply sorted_ext a4 b4
    intro s
    rw [a6, b6]
    apply and_congr _ Iff.rfl
    constructor
    · rintro ⟨r, hr, rfl, k, hk⟩
      obtain ⟨r', hr', e, _, hk'⟩ := (ht r.resource r.value k).mp ⟨r, hr, rfl, rfl, hk⟩
      exact ⟨r', hr', e, k, hk'⟩
    · rintro ⟨r, hr, rfl, k, hk⟩
      obtain ⟨r', hr', e, _, hk'⟩ := (ht r.resource r.value k).mpr ⟨r, hr, rfl, rfl, hk⟩
      exact ⟨r', hr', e, k, hk'⟩
  have ey : y1 = y2 := by
    apply sorted_ext a5 b5
    intro y
    rw [a7, b7]
    constructor
    · rintro ⟨r, hr, rfl, k, hk⟩
      obtain ⟨r', hr', _, e, hk'⟩ := (ht r.resource r.value k).mp ⟨r, hr, rfl, rfl, hk⟩
      exact ⟨r', hr', e, k, hk'⟩
    · rintro ⟨r, hr, rfl, k, hk⟩
      obtain ⟨r', hr', _, e, hk'⟩ := (ht r.resource r.value k).mpr ⟨r, hr, rfl, rfl, hk⟩
      exact ⟨r', hr', e, k, hk'⟩
  have el : l1 = l2 := by
    apply le_antisymm
    · rcases a3 with h | ⟨r, hr, hk⟩
      · omega
      · obtain ⟨r', hr', _, _, hk'⟩ := (ht r.resource r.value _).mp ⟨r, hr, rfl, rfl, hk⟩
        have := b2 r' hr' _ hk'
        omega
    · rcases b3 with h | ⟨r, hr, hk⟩
      · omega
      · obtain ⟨r', hr', _, _, hk'⟩ := (ht r.resource r.value _).mpr ⟨r, hr, rfl, rfl, hk⟩
        have := a2 r' hr' _ hk'
        omega
  subst es ey el
  rw [a9, b9, rArray_congr (f := g1) (g := g2)]
  intro i j k hi hj hk
  rw [a8 i j k _ _ (List.getElem?_eq_getElem hi) (List.getElem?_eq_getElem hj) hk,
    b8 i j k _ _ (List.getElem?_eq_getElem hi) (List.getElem?_eq_getElem hj) hk, hv]

theorem overlap_affine_aux {a c x1 x2 x3 x4 : K} (ha : 0 < a) :
    overlap (a * x1 + c) (a * x2 + c) (a * x3 + c) (a * x4 + c) = a * overlap x1 x2 x3 x4 := by
  unfold overlap
  rw [mul_max_of_nonneg _ _ ha.le, mul_sub, mul_min_of_nonneg _ _ ha.le, mul_max_of_nonneg _ _ ha.le, mul_zero,
    min_add_add_right, max_add_add_right]
  congr 1
  ring

/-- The order of the states in the trace, the unit and the origin of time do not matter. -/
theorem invariant (trace trace' : List (TState S Y K)) (first total : K) (ht : RightTrace trace first total) (a c : K) (ha : 0 < a)
    (hp : trace'.Perm (trace.map (fun r => { r with start := a * r.start + c, «end» := a * r.end + c, duration := a * r.duration })))
    (resources : List (Container S)) (n : Nat) (enable : Bool) :
    pjdump2micro trace' resources n enable = pjdump2micro trace resources n enable := by
  have hm : ∀ r', r' ∈ trace' ↔ ∃ r ∈ trace, r' = { r with start := a * r.start + c, «end» := a * r.end + c, duration := a * r.duration } := by
    intro r'
    rw [hp.mem_iff, List.mem_map]
    constructor
    · rintro ⟨r, h, rfl⟩; exact ⟨r, h, rfl⟩
    · rintro ⟨r, h, rfl⟩; exact ⟨r, h, rfl⟩
  have hs : ∀ k, sliceAt (a * first + c) (a * total) n k = a * sliceAt first total n k + c := by
    intro k; unfold sliceAt; ring
  have ht' : RightTrace trace' (a * first + c) (a * total) := by
    refine ⟨?_, ?_, ?_, ?_, ?_, ?_, mul_pos ha ht.pos⟩
    · obtain ⟨r, hr, e⟩ := ht.firstEx
      exact ⟨_, (hm _).mpr ⟨r, hr, rfl⟩, by rw [← e]⟩
    · intro r' hr'
      obtain ⟨r, hr, rfl⟩ := (hm _).mp hr'
      have := mul_le_mul_of_nonneg_left (ht.firstLe r hr) ha.le
      dsimp only
      linarith
    · obtain ⟨r, hr, e⟩ := ht.lastEx
      exact ⟨_, (hm _).mpr ⟨r, hr, rfl⟩, by dsimp only; rw [e]; ring⟩
    · intro r' hr'
      obtain ⟨r, hr, rfl⟩ := (hm _).mp hr'
      have := mul_le_mul_of_nonneg_left (ht.lastLe r hr) ha.le
      dsimp only
      linarith
    · intro r' hr'
      obtain ⟨r, hr, rfl⟩ := (hm _).mp hr'
      dsimp only
      rw [ht.duration r hr]; ring
    · intro r' hr'
      obtain ⟨r, hr, rfl⟩ := (hm _).mp hr'
      have := mul_le_mul_of_nonneg_left (ht.order r hr) ha.le
      dsimp only
      linarith
  apply determined_aux ht' ht
  · intro s y k
    have key : ∀ r : TState S Y K, Touches (a * first + c) (a * total) n
        { r with start := a * r.start + c, «end» := a * r.end + c, duration := a * r.duration } k ↔ Touches first total n r k := by
      intro r
      unfold Touches
      rw [hs, hs]
      simp only [add_lt_add_iff_right, mul_lt_mul_iff_right₀ ha]
    constructor
    · rintro ⟨r', hr', rfl, rfl, hk⟩
      obtain ⟨r, hr, rfl⟩ := (hm _).mp hr'
      exact ⟨r, hr, rfl, rfl, (key r).mp hk⟩
    · rintro ⟨r, hr, rfl, rfl, hk⟩
      exact ⟨_, (hm _).mpr ⟨r, hr, rfl⟩, rfl, rfl, (key r).mpr hk⟩
  · intro s y k
    have e : timeIn trace' (a * first + c) (a * total) n s y k = a * timeIn trace first total n s y k := by
      unfold timeIn
      rw [((hp.filter _).map _).sum_eq, List.filter_map, List.map_map, ← List.sum_map_mul_left]
      congr 1
      apply List.map_congr_left
      intro r _
      simp only [Function.comp]
      rw [hs, hs, overlap_affine_aux ha]
    rw [e, mul_div_mul_left _ _ ha.ne']

/-- From the trace to the partitions: `oaggregate` applied to the array gives a right result about the shares. -/
theorem aggregated {F : Type} [FloatP F ℝ] {u : ℝ} (fl : FloatLaws F ℝ u) (randMax : ℝ) (hr : 2 ≤ randMax) (t : F)
    (ht : (0 : ℝ) < FloatP.toK t) (hu : 11 * u ≤ FloatP.toK t) :
    ∃ N : Nat, ∀ (trace : List (TState S Y ℝ)) (first total : ℝ) (resources : List (Container S)) (n : Nat) (m : Micro S Y ℝ)
      (share : Nat → Nat → Nat → ℝ),
      RightTrace trace first total → n ≤ 65535 → pjdump2micro trace resources n false = .ok m → m.time ≠ [] →
      (∀ (i j k : Nat) (s : S) (y : Y), m.space[i]? = some s → m.type[j]? = some y → k < m.time.length →
        share i j k = timeIn trace first total n s y k / total) →
      let gain := gain3 m.space.length m.type.length share
      let loss := loss3 m.space.length m.type.length share
      let all := Finset.Icc 0 (m.time.length - 1)
      m.space.length * m.type.length < 2 ^ 32 → gain all ≠ 0 → loss all ≠ 0 →
      let quality := relative gain loss all (fun I : Nat × Nat => Finset.Icc I.1 I.2)
      ∀ fuel, N ≤ fuel → ∃ r, oaggregate false fuel randMax id m.data t = .ok r ∧
        RightSheet ORow.parameter (Tiles 0 m.time.length) (Tiles 0 m.time.length) quality
          (fun p I => ⟨p, I.1 + 1, I.2 + 1, (quality I).gain, (quality I).loss⟩) r := by
  obtain ⟨N, hN⟩ := C49.ordered fl randMax hr t ht hu
  refine ⟨N, ?_⟩
  intro trace first total resources n m share htr hn hm htime hshare
  obtain ⟨last, space, type, f, h1, h2, h3, h4, h5, h6, h7, h8, h9⟩ := cube trace first total htr resources n
  obtain rfl := Except.ok.inj (hm.symm.trans h1)
  have hlen : ((List.range last).map (· + 1)).length = last := by simp
  dsimp only at hshare htime ⊢
  rw [hlen] at hshare ⊢
  intro hF hg hl fuel hf
  have hl0 : 0 < last := by
    rcases Nat.eq_zero_or_pos last with h | h
    · subst h; simp at htime
    · exact h
  obtain ⟨r0, hr0, hk0⟩ : ∃ r ∈ trace, Touches first total n r (last - 1) := by
    rcases h4 with h | h
    · omega
    · exact h
  have s0 : 0 < space.length := List.length_pos_of_mem ((h6 r0.resource).mpr ⟨r0, hr0, rfl, _, hk0⟩)
  have y0 : 0 < type.length := List.length_pos_of_mem ((h8 r0.value).mpr ⟨r0, hr0, rfl, _, hk0⟩)
  rw [rArray_congr (f := f) (g := fun x => share x.1 x.2.1 x.2.2)]
  · apply hN space.length type.length last (fun x => share x.1 x.2.1 x.2.2) s0 y0 hl0 (by omega) hF ?_ hg hl fuel hf
    intro i j k hi hj hk
    dsimp only
    rw [hshare i j k _ _ (List.getElem?_eq_getElem hi) (List.getElem?_eq_getElem hj) hk]
    exact div_nonneg (timeIn_nonneg _ _ _) htr.pos.le
  · intro i j k hi hj hk
    dsimp only
    rw [hshare i j k _ _ (List.getElem?_eq_getElem hi) (List.getElem?_eq_getElem hj) hk,
      h9 i j k _ _ (List.getElem?_eq_getElem hi) (List.getElem?_eq_getElem hj) hk]

end

/-! ## Concrete cases -/

/-- Two resources, 0 and 1, in the states 0 and 1, from time 1 to time 5. -/
def trace2 : List (TState Nat Nat ℚ) :=
  [⟨0, 1, 2, 1, 0⟩, ⟨1, 1, 3, 2, 1⟩, ⟨0, 2, 5, 3, 1⟩, ⟨1, 3, 5, 2, 0⟩]

theorem trace2_right_aux : RightTrace trace2 1 4 := by
  constructor <;> decide +kernel

example : List.Perm ((slicerstate trace2 2).map (fun r => (r.resource, r.slice, r.type, r.sum, r.normalized)))
    [(0, 1, 0, 1, 1 / 4), (0, 1, 1, 1, 1 / 4), (0, 2, 0, 0, 0), (0, 2, 1, 2, 1 / 2),
     (1, 1, 0, 0, 0), (1, 1, 1, 2, 1 / 2), (1, 2, 0, 2, 1 / 2), (1, 2, 1, 0, 0)] := by
  decide +kernel

/-- The hypotheses of `conserved`, `full`, `slices`, `cube` and `invariant` hold of it. -/
example : (((slicerstate trace2 3).filter (fun e => e.resource = 0 ∧ e.type = 1)).map (fun e => e.sum)).sum = 3 := by
  rw [conserved trace2 1 4 trace2_right_aux 3 (by omega) 0 1 (by decide +kernel) (by decide +kernel)]
  decide +kernel

example : (((slicerstate trace2 3).filter (fun e => e.resource = 1 ∧ e.slice = 2)).map (fun e => e.normalized)).sum = 1 / 3 := by
  have := full trace2 1 4 trace2_right_aux 3 1 [⟨1, 1, 3, 2, 1⟩, ⟨1, 3, 5, 2, 0⟩]
    ⟨rfl, by decide +kernel, rfl, by decide +kernel, by show (5 : ℚ) = 1 + 4; norm_num⟩ (List.Perm.refl _) 2 (by omega) (by omega)
  exact_mod_cast this

example : ∃ e ∈ slicerstate trace2 7, e.slice = 7 ∧ e.resource = 0 ∧ e.type = 1 :=
  slices trace2 1 4 trace2_right_aux 7 ⟨0, 2, 5, 3, 1⟩ (by simp [trace2]) (by decide +kernel) (by decide +kernel) 7 (by omega)
    (by omega)

/-- The array: resource fastest, then value, then slice. -/
example : (pjdump2micro trace2 [] 2 false).map (fun m => (m.space, m.type, m.time, m.data.mem)) =
    .ok ([0, 1], [0, 1], [1, 2], [1 / 4, 0, 1 / 4, 1 / 2, 0, 1 / 2, 1 / 2, 0]) := by
  decide +kernel

example (resources : List (Container Nat)) : ∃ m, pjdump2micro trace2 resources 4 false = .ok m := by
  obtain ⟨_, _, _, _, h, _⟩ := cube trace2 1 4 trace2_right_aux resources 4
  exact ⟨_, h⟩

example : pjdump2micro ((trace2.map (fun r => { r with start := 10 * r.start + 7, «end» := 10 * r.end + 7, duration := 10 * r.duration })).reverse)
    [] 4 false = pjdump2micro trace2 [] 4 false :=
  invariant trace2 _ 1 4 trace2_right_aux 10 7 (by norm_num) (List.reverse_perm _) [] 4 false

/-- One resource that works during the whole first slice and half of the second: the hypotheses of `aggregated` hold. -/
example : ∃ fuel m r, pjdump2micro ([⟨0, 0, 2, 2, 1⟩, ⟨0, 3, 4, 1, 1⟩] : List (TState Nat Nat ℝ)) [] 2 false = .ok m ∧
    oaggregate (F := ℝ) false fuel 2147483647 id m.data (1 / 100) = .ok r ∧ r.auc ≤ 1 := by
  obtain ⟨N, h⟩ := aggregated (S := Nat) (Y := Nat) (exactLaws ℝ) 2147483647 (by norm_num) (1 / 100 : ℝ) (by simp) (by simp)
  have hr : RightTrace ([⟨0, 0, 2, 2, 1⟩, ⟨0, 3, 4, 1, 1⟩] : List (TState Nat Nat ℝ)) 0 4 := by
    constructor <;> norm_num
  have hk0 : Touches (S := Nat) (Y := Nat) (0 : ℝ) 4 2 ⟨0, 0, 2, 2, 1⟩ 0 := by unfold Touches sliceAt; norm_num
  have hk1 : Touches (S := Nat) (Y := Nat) (0 : ℝ) 4 2 ⟨0, 3, 4, 1, 1⟩ 1 := by unfold Touches sliceAt; norm_num
  obtain ⟨last, space, type, f, h1, h2, h3, h4, h5, h6, h7, h8, h9⟩ := cube _ _ _ hr [] 2
  have hlast : last = 2 := by have := h3 _ (by simp) _ hk1; omega
  have hspace : space = [0] := by
    apply sorted_ext h5 (by simp)
    intro s
    rw [h6]
    constructor
    · rintro ⟨r, hr, rfl, _⟩
      simp only [List.mem_cons, List.not_mem_nil, or_false] at hr
      rcases hr with rfl | rfl <;> simp
    · intro hs
      obtain rfl := List.mem_singleton.mp hs
      exact ⟨_, by simp, by simp, _, hk0⟩
  have htype : type = [1] := by
    apply sorted_ext h7 (by simp)
    intro s
    rw [h8]
    constructor
    · rintro ⟨r, hr, rfl, _⟩
      simp only [List.mem_cons, List.not_mem_nil, or_false] at hr
      rcases hr with rfl | rfl <;> simp
    · intro hs
      obtain rfl := List.mem_singleton.mp hs
      exact ⟨_, by simp, by simp, _, hk0⟩
  subst hlast hspace htype
  have hv : ∀ k, k < 2 → timeIn ([⟨0, 0, 2, 2, 1⟩, ⟨0, 3, 4, 1, 1⟩] : List (TState Nat Nat ℝ)) 0 4 2 0 1 k / 4 =
      if k = 0 then 1 / 2 else 1 / 4 := by
    intro k hk
    unfold timeIn overlap sliceAt
    rcases (show k = 0 ∨ k = 1 by omega) with rfl | rfl <;> norm_num
  obtain ⟨n1, n2⟩ := C49.nz_aux (f := fun k : Nat => if k = 0 then (1 / 2 : ℝ) else 1 / 4) (s := Finset.Icc 0 1)
    (fun x _ => by split_ifs <;> norm_num) (a := 0) (b := 1) (c := 0) (d := 1) (by simp) (by simp) (by norm_num) (by norm_num) (by norm_num)
    (by simp) (by simp) (by norm_num)
  obtain ⟨r, e, hr⟩ := h _ _ _ [] 2 _ (fun _ _ k => if k = 0 then 1 / 2 else 1 / 4) hr (by norm_num) h1 (by simp) (by
    intro i j k s y hs hy hk
    rcases i with _ | i <;> rcases j with _ | j <;> simp at hs hy
    subst hs hy
    exact (hv k (by simpa using hk)).symm) (by norm_num) n1 n2 N (Nat.le_refl _)
  exact ⟨N, _, r, h1, e, hr.auc.2⟩

/-- Fewer slices than were asked for: here only a state without length ends with the trace, so that nothing overlaps the last two of the
four slices; they are missing, and so is the resource of that state. -/
example : (slicerstate ([⟨0, 0, 2, 2, 1⟩, ⟨1, 4, 4, 0, 2⟩] : List (TState Nat Nat ℚ)) 4).map
    (fun r => (r.resource, r.slice, r.type, r.sum)) = [(0, 1, 1, 1), (0, 2, 1, 1)] := by
  decide +kernel

end Lp.C53
