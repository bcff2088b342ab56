import Verif.Model.RCounterNaN
import Verif.Props.C70
import Verif.Props.C76

/-!
# C102 — a counter that counts nothing spoils the whole analysis

`slicerprvcounter` divides the means of each type of counter by their sum.  `pjdump2microN` is `pjdump2micro` for counters with R's
division (`Model/RCounterNaN.lean`).
-/

namespace Lp.C102
open Spec
variable {S Y K : Type} [LinearOrder S] [LinearOrder Y] [Field K] [LinearOrder K]

theorem div_aux {a b : K} (hb : b = 0 → a = 0) :
    (Special.num a / Special.num b : Special K) = if b = 0 then .nan else .num (a / b) := by
  show Special.div (.num a) (.num b) = _
  by_cases h : b = 0
  · rw [if_pos h, Special.div, if_neg (by subst h; simp), hb h, Special.scale, if_neg (lt_irrefl _), if_neg (lt_irrefl _)]
  · rw [if_neg h, Special.div, if_pos (lt_or_gt_of_ne h)]

variable [IsStrictOrderedRing K]

theorem sum_nonpos_aux : ∀ l : List K, (∀ v ∈ l, v ≤ 0) → l.sum ≤ 0
  | [], _ => le_refl _
  | a :: l, h => by
    rw [List.sum_cons]
    have h1 := h a (by simp)
    have h2 := sum_nonpos_aux l (fun v hv => h v (by simp [hv]))
    linarith

theorem mean_zero_aux {trace : List (TCounter S Y K)} {first total : K} {n : Nat} {y : Y} (h0 : meansOf trace first total n y = 0)
    {s : S} (hs : ∃ y', 2 ≤ (readings trace s y').length) {k : Nat} (hk : k < n) : meanIn trace first total n s y k = 0 := by
  have hnn : ∀ s' k', 0 ≤ meanIn trace first total n s' y k' := fun s' k' => le_max_left _ _
  refine le_antisymm ?_ (hnn s k)
  rw [← h0]
  obtain ⟨y', h⟩ := hs
  obtain ⟨r, hr⟩ := List.exists_mem_of_ne_nil (readings trace s y') (by intro e; rw [e] at h; simp at h)
  obtain ⟨h1, h2⟩ := List.mem_filter.mp hr
  rw [decide_eq_true_eq] at h2
  refine (Finset.single_le_sum (f := fun k => meanIn trace first total n s y k) (fun k' _ => hnn s k') (Finset.mem_range.mpr hk)).trans ?_
  unfold meansOf
  apply List.single_le_sum
  · intro v hv
    obtain ⟨s', _, rfl⟩ := List.mem_map.mp hv
    exact Finset.sum_nonneg (fun k' _ => hnn s' k')
  · exact List.mem_map.mpr ⟨s, List.mem_dedup.mpr (List.mem_map.mpr ⟨r, h1, h2.1⟩), rfl⟩

theorem both_aux {trace : List (TCounter S Y K)} {first total : K} (ht : RightCounters trace first total) (resources : List (Container S))
    {n : Nat} (hn : 0 < n) (enable : Bool) :
    ∃ (last : Nat) (space : List S) (type : List Y) (f : Nat × Nat × Nat → K) (g : Nat × Nat × Nat → Special K),
      pjdump2microC trace resources n enable =
        ((if enable then hierarchyOf resources space (rSortUnique (resources.map (fun c => c.parent))).reverse else .ok ([], [0])) >>=
          fun nv => .ok ⟨space, type, (List.range last).map (· + 1), rArray space.length type.length last f, nv.1, nv.2⟩) ∧
      pjdump2microN trace resources n enable =
        ((if enable then hierarchyOf resources space (rSortUnique (resources.map (fun c => c.parent))).reverse else .ok ([], [0])) >>=
          fun nv => .ok ⟨space, type, (List.range last).map (· + 1), rArray space.length type.length last g, nv.1, nv.2⟩) ∧
      last ≤ n ∧ (∀ s y k, k < n → 0 < watched trace first total n s y k → k < last) ∧
      (∀ s, s ∈ space ↔ (∃ y, 2 ≤ (readings trace s y).length) ∧ (enable = true → ∀ c ∈ resources, c.parent ≠ s)) ∧
      (∀ y, y ∈ type ↔ ∃ s, 2 ≤ (readings trace s y).length) ∧
      ∀ (i j k : Nat) (s : S) (y : Y), space[i]? = some s → type[j]? = some y → k < last →
        f (i, j, k) = meanIn trace first total n s y k / meansOf trace first total n y ∧
        g (i, j, k) = if meansOf trace first total n y = 0 then .nan else .num (f (i, j, k)) := by
  obtain ⟨o, e, e', last, hle, hlast, hlast', nd, mem⟩ := counters_filled ht hn
  have hty : ∀ s y, (∃ y', 2 ≤ (readings trace s y').length) → (∃ s', 2 ≤ (readings trace s' y).length) → 0 < last := by
    rintro s y ⟨y', hs⟩ _
    obtain ⟨k, hk, h⟩ := (watched_some ht hn).mpr hs
    have := hlast _ _ k hk h
    omega
  have hl : last = 0 ∨ ∃ s, ∃ y, 2 ≤ (readings trace s y).length := by
    rcases hlast' with h | ⟨s, y, h⟩
    · exact .inl h
    · obtain ⟨x, hx, _⟩ := watched_pos.mp h
      exact .inr ⟨s, y, pieces_nonempty.mp (List.ne_nil_of_mem hx)⟩
  obtain ⟨space, type, f, h1, h2, h3, h4, h5, h6⟩ := microOf_spec (df₀ := slicerprvcounter trace n) (last := last)
    (rs := fun s => ∃ y, 2 ≤ (readings trace s y).length) (ty := fun y => ∃ s, 2 ≤ (readings trace s y).length)
    (W := fun s y k => meanIn trace first total n s y k / meansOf trace first total n y) (by
      rw [e]; unfold shares; rw [List.map_map]; exact nd) (by
      rw [e]
      intro r hr
      obtain ⟨x, hx, rfl⟩ := List.mem_map.mp hr
      obtain ⟨a, b, c, d, _, g⟩ := (mem _ _ _ _ _).mp ⟨x, hx, rfl, rfl, rfl, rfl, rfl⟩
      refine ⟨a, b, c, d, ?_⟩
      dsimp only
      rw [C55.type_sum_aux hle hlast nd mem b, g]) (by
      rw [e]
      intro s y k hs hy h1 h2
      obtain ⟨x, hx, a, b, c, _⟩ := (mem s k y _ _).mpr ⟨hs, hy, h1, h2, rfl, rfl⟩
      exact ⟨_, List.mem_map.mpr ⟨x, hx, rfl⟩, a, b, c⟩) hty (fun s ⟨y', hs⟩ => ⟨y', s, hs⟩) (fun y ⟨s, hs⟩ => ⟨s, y, hs⟩) hl resources enable
  obtain ⟨space', type', g, g1, g2, g3, g4, g5, g6⟩ := microOf_spec (df₀ := slicerprvcounterN trace n) (last := last)
    (rs := fun s => ∃ y, 2 ≤ (readings trace s y).length) (ty := fun y => ∃ s, 2 ≤ (readings trace s y).length)
    (W := fun s y k => if meansOf trace first total n y = 0 then .nan
      else .num (meanIn trace first total n s y k / meansOf trace first total n y)) (by
      unfold slicerprvcounterN sharesN; rw [e', List.map_map]; exact nd) (by
      unfold slicerprvcounterN sharesN
      rw [e']
      intro r hr
      obtain ⟨x, hx, rfl⟩ := List.mem_map.mp hr
      obtain ⟨a, b, c, d, _, g⟩ := (mem _ _ _ _ _).mp ⟨x, hx, rfl, rfl, rfl, rfl, rfl⟩
      refine ⟨a, b, c, d, ?_⟩
      dsimp only
      rw [C55.type_sum_aux hle hlast nd mem b, g]
      exact div_aux (fun h => mean_zero_aux h a (by omega))) (by
      unfold slicerprvcounterN sharesN
      rw [e']
      intro s y k hs hy h1 h2
      obtain ⟨x, hx, a, b, c, _⟩ := (mem s k y _ _).mpr ⟨hs, hy, h1, h2, rfl, rfl⟩
      exact ⟨_, List.mem_map.mpr ⟨x, hx, rfl⟩, a, b, c⟩) hty (fun s ⟨y', hs⟩ => ⟨y', s, hs⟩) (fun y ⟨s, hs⟩ => ⟨s, y, hs⟩) hl resources enable
  obtain rfl : space' = space := sorted_ext g1 h1 (fun x => (g3 x).trans (h3 x).symm)
  obtain rfl : type' = type := sorted_ext g2 h2 (fun x => (g4 x).trans (h4 x).symm)
  refine ⟨last, space', type', f, g, h6, g6, hle, hlast, h3, h4, fun i j k s y hi hj hk => ?_⟩
  have a := h5 i j k s y hi hj hk
  refine ⟨a, ?_⟩
  rw [g5 i j k s y hi hj hk, a]

/-- The result of `pjdump2micro(trace, n, "Counter", enable)` with R's division: the same resources, types, slices and hierarchy as with
exact division (C55, C70); the cells of the types that count something are the shares, all the cells of a type that counts nothing
are NaN. -/
theorem cube (trace : List (TCounter S Y K)) (first total : K) (ht : RightCounters trace first total) (resources : List (Container S))
    (n : Nat) (hn : 0 < n) (enable : Bool) (m : Micro S Y K) (hm : pjdump2microC trace resources n enable = .ok m) :
    ∃ m', pjdump2microN trace resources n enable = .ok m' ∧
      m'.space = m.space ∧ m'.type = m.type ∧ m'.time = m.time ∧ m'.names = m.names ∧ m'.hierarchy = m.hierarchy ∧
      ∃ (f : Nat × Nat × Nat → K) (g : Nat × Nat × Nat → Special K),
        m.data = rArray m.space.length m.type.length m.time.length f ∧
        m'.data = rArray m.space.length m.type.length m.time.length g ∧
        ∀ (i j k : Nat) (s : S) (y : Y), m.space[i]? = some s → m.type[j]? = some y → k < m.time.length →
          f (i, j, k) = meanIn trace first total n s y k / meansOf trace first total n y ∧
          g (i, j, k) = if meansOf trace first total n y = 0 then .nan else .num (f (i, j, k)) := by
  obtain ⟨last, space, type, f, g, h1, h2, _, _, _, _, h3⟩ := both_aux ht resources hn enable
  rw [h1] at hm
  cases hnv : (if enable then hierarchyOf resources space (rSortUnique (resources.map (fun c => c.parent))).reverse else .ok ([], [0]) :
      Res (List S × List Int)) with
  | error e => rw [hnv] at hm; cases hm
  | ok nv =>
    rw [hnv] at hm h2
    obtain rfl := Except.ok.inj hm
    exact ⟨_, h2, rfl, rfl, rfl, rfl, rfl, f, g, by simp, by simp, fun i j k s y hi hj hk => h3 i j k s y hi hj (by simpa using hk)⟩

/-- A type counts nothing when no reading but the first of each of its counters is positive. -/
theorem nothing (trace : List (TCounter S Y K)) (first total : K) (ht : RightCounters trace first total) (n : Nat) (y : Y)
    (h : ∀ s, ∀ r ∈ (readings trace s y).tail, r.value.2 ≤ 0) : meansOf trace first total n y = 0 := by
  have : ∀ s k, meanIn trace first total n s y k = 0 := by
    intro s k
    unfold meanIn
    apply max_eq_left
    apply div_nonpos_of_nonpos_of_nonneg _ (watched_nonneg s y k)
    unfold counted
    apply sum_nonpos_aux
    intro v hv
    obtain ⟨x, hx, rfl⟩ := List.mem_map.mp hv
    have hlt := ht.length _ _ _ hx
    apply mul_nonpos_of_nonpos_of_nonneg _ (div_nonneg (overlap_nonneg _ _ _ _) (by linarith))
    unfold pieces at hx
    obtain ⟨⟨a, b⟩, hab, rfl⟩ := List.mem_map.mp hx
    exact h s b (List.of_mem_zip hab).2
  unfold meansOf
  simp [this]

/-- If no reading is negative, these are the only types that count nothing. -/
theorem nothingIff (trace : List (TCounter S Y K)) (first total : K) (ht : RightCounters trace first total) (n : Nat) (hn : 0 < n)
    (h0 : ∀ r ∈ trace, 0 ≤ r.value.2) (y : Y) :
    meansOf trace first total n y = 0 ↔ ∀ s, ∀ r ∈ (readings trace s y).tail, r.value.2 = 0 := by
  constructor
  · intro h s r hr
    have hr0 := h0 r (List.mem_filter.mp (List.mem_of_mem_tail hr)).1
    rcases hr0.lt_or_eq with h1 | h1
    · have := C55.meansOf_pos_aux ht hn h0 hr h1
      rw [h] at this
      exact absurd this (lt_irrefl _)
    · exact h1.symm
  · intro h
    exact nothing trace first total ht n y (fun s r hr => (h s r hr).le)

variable {F : Type} [FloatP F (Special ℝ)]

/-- Time alone: if one type of counter counts nothing, `oaggregate` of the array of `pjdump2micro` reads an uninitialised variable,
whatever the other counters are. -/
theorem ordered (ha : Apart (FloatP.zero : F) (FloatP.oneSub FloatP.zero)) (trace : List (TCounter S Y ℝ)) (first total : ℝ)
    (ht : RightCounters trace first total) (resources : List (Container S)) (n : Nat) (hn : 0 < n) (hn' : n ≤ 65535)
    (s : S) (y : Y) (hy : 2 ≤ (readings trace s y).length) (h0 : meansOf trace first total n y = 0) :
    ∃ m, pjdump2microN trace resources n false = .ok m ∧ (m.space.length * m.type.length < 2 ^ 32 →
      m.type.length * m.time.length < 2 ^ 32 → ∀ (fuel : Nat) (randMax : Special ℝ) (rnd : Special ℝ → Special ℝ) (t : F),
        oaggregate false (fuel + 1) randMax rnd m.data t = .error .uninit) := by
  obtain ⟨last, space, type, f, g, _, h2, hle, hlast, hs, hty, h3⟩ := both_aux ht resources hn false
  refine ⟨_, h2, fun hF hF' fuel randMax rnd t => ?_⟩
  dsimp only at hF hF' ⊢
  simp only [List.length_map, List.length_range] at hF'
  obtain ⟨i, hi⟩ := List.getElem?_of_mem ((hs s).mpr ⟨⟨y, hy⟩, by simp⟩)
  obtain ⟨j, hj⟩ := List.getElem?_of_mem ((hty y).mpr ⟨s, hy⟩)
  obtain ⟨k, hk, hw⟩ := (watched_some ht hn).mpr hy
  have hk' := hlast _ _ k hk hw
  have hnan := (h3 i j k s y hi hj hk').2
  rw [if_pos h0] at hnan
  exact (C76.missingArray (exactNaN ℝ) _ _ last g (by omega) hF hF' ha fuel randMax rnd t i j k (List.getElem?_eq_some_iff.mp hi).1
    (List.getElem?_eq_some_iff.mp hj).1 hk' hnan).1

/-- With the hierarchy: `haggregate` and `daggregate` read an uninitialised variable. -/
theorem withHierarchy (ha : Apart (FloatP.zero : F) (FloatP.oneSub FloatP.zero)) (trace : List (TCounter S Y ℝ)) (first total : ℝ)
    (resources : List (Container S)) (root : S) (hi : RightCounterInput trace first total resources root) (hd : SameDepth resources root)
    (hleast : ∀ c ∈ resources, root ≤ c.parent) (n : Nat) (hn : 0 < n) (hn' : n ≤ 65535)
    (s : S) (y : Y) (hy : 2 ≤ (readings trace s y).length) (h0 : meansOf trace first total n y = 0) :
    ∃ m, pjdump2microN trace resources n true = .ok m ∧ (m.space.length * m.type.length < 2 ^ 32 →
      m.type.length * m.time.length < 2 ^ 32 → ∀ (fuel : Nat) (randMax : Special ℝ) (rnd : Special ℝ → Special ℝ) (t : F),
        haggregate false (fuel + 1) randMax rnd m.data m.hierarchy t = .error .uninit ∧
        (m.space.length * m.time.length < 2147483648 →
          daggregate false (fuel + 1) randMax rnd m.data m.hierarchy t = .error .uninit)) := by
  have htr := hi.rightCounters
  obtain ⟨mC, _, _, hC, _⟩ := C55.hierarchy trace first total htr resources root hi.rightResources hi.known n hn
  obtain ⟨tree, near, hlt, htime, _⟩ := C70.input_aux hn hi hd hleast hC (share := fun i j k =>
    if h : i < mC.space.length ∧ j < mC.type.length then
      meanIn trace first total n (mC.space[i]'h.1) (mC.type[j]'h.2) k / meansOf trace first total n (mC.type[j]'h.2) else 0) (by
      intro i j k s y hi hj _
      obtain ⟨h1, rfl⟩ := List.getElem?_eq_some_iff.mp hi
      obtain ⟨h2, rfl⟩ := List.getElem?_eq_some_iff.mp hj
      rw [dif_pos ⟨h1, h2⟩])
  obtain ⟨m, hm, e1, e2, e3, _, e5, f, g, _, hg, hcell⟩ := cube trace first total htr resources n hn true mC hC
  refine ⟨m, hm, ?_⟩
  rw [e1, e2, e3, e5, hg]
  intro hF hF' fuel randMax rnd t
  obtain ⟨last, space, type, _, _, h2, _, _, hlast, hs, hty, _⟩ := both_aux htr resources hn true
  have hsp : mC.space = space ∧ mC.type = type ∧ mC.time.length = last := by
    rw [h2] at hC
    revert hC
    cases (if (true : Bool) = true then hierarchyOf resources space (rSortUnique (resources.map (fun c => c.parent))).reverse
      else .ok ([], [0]) : Res (List S × List Int)) with
    | error e => intro h; cases h
    | ok nv =>
      intro h
      obtain rfl := Except.ok.inj h
      exact ⟨rfl, rfl, by simp⟩
  obtain ⟨rfl, rfl, rfl⟩ := hsp
  obtain ⟨j, hj⟩ := List.getElem?_of_mem ((hty y).mpr ⟨s, hy⟩)
  obtain ⟨k, hk, hw⟩ := (watched_some htr hn).mpr hy
  have hk' := hlast _ _ k hk hw
  have hpos : 0 < mC.space.length := by
    obtain ⟨l, hl, _⟩ := tree.exists_leaf tree.rootLt
    exact Nat.zero_lt_of_lt hl
  have hnan := (hcell 0 j k _ y (List.getElem?_eq_getElem hpos) hj hk').2
  rw [if_pos h0] at hnan
  obtain ⟨_, h⟩ := C76.missingArray (exactNaN ℝ) _ _ _ g (by omega) hF hF' ha fuel randMax rnd t 0 j k hpos
    (List.getElem?_eq_some_iff.mp hj).1 hk' hnan
  exact h mC.hierarchy tree near (by simpa using hlt)

/-! ## Concrete cases -/

/-- The counters of `C70.readings4` and a counter 8 on core 1 that stays at 0. -/
def readings5 (K : Type) [Field K] : List (TCounter Nat Nat K) :=
  C70.readings4 K ++ [⟨1, 0, 2, 2, (8, 0)⟩, ⟨1, 2, 2, 0, (8, 0)⟩]

theorem pieces5_aux (s y : Nat) : pieces (readings5 ℝ) s y =
    if y = 7 then (if s = 1 then [(0, 2, 4)] else if s = 2 then [(0, 2, 8)] else [])
    else if y = 8 then (if s = 1 then [(0, 2, 0)] else []) else [] := by
  unfold pieces readings readings5 C70.readings4
  by_cases hy : y = 7
  · subst hy
    by_cases h1 : s = 1
    · subst h1; simp
    · by_cases h2 : s = 2
      · subst h2; simp
      · simp [h1, h2, Ne.symm h1, Ne.symm h2]
  · by_cases h8 : y = 8
    · subst h8
      by_cases h1 : s = 1
      · subst h1; simp
      · simp [h1, Ne.symm h1]
    · simp [hy, Ne.symm hy, h8, Ne.symm h8]

theorem input5_aux : RightCounterInput (readings5 ℝ) 0 2 C70.containers3 0 := by
  refine ⟨?_, C70.containers3_right_aux, ?_, ?_, by decide⟩
  · refine ⟨?_, ?_, ?_, ?_, ?_, ?_, by norm_num⟩
    · simp [readings5, C70.readings4]
    · simp [readings5, C70.readings4]
    · simp [readings5, C70.readings4]
    · simp [readings5, C70.readings4]
    · simp [readings5, C70.readings4]
    · intro s y x hx
      rw [pieces5_aux] at hx
      split_ifs at hx <;> simp at hx <;> subst hx <;> norm_num
  · simp [readings5, C70.readings4, C70.containers3]
  · intro c hc hno
    refine ⟨7, ?_⟩
    simp only [C70.containers3, List.mem_cons, List.not_mem_nil, or_false] at hc
    rcases hc with rfl | rfl | rfl
    · exact absurd rfl (hno ⟨0, 0⟩ (by decide))
    · simp [readings, readings5, C70.readings4]
    · simp [readings, readings5, C70.readings4]

theorem nothing5_aux (n : Nat) : meansOf (readings5 ℝ) 0 2 n 8 = 0 := by
  refine nothing _ _ _ input5_aux.rightCounters n 8 (fun s r hr => ?_)
  have h1 := (List.mem_filter.mp (List.mem_of_mem_tail hr))
  simp only [readings5, C70.readings4, List.cons_append, List.nil_append, List.mem_cons, List.not_mem_nil, or_false, decide_eq_true_eq] at h1
  rcases h1 with ⟨rfl | rfl | rfl | rfl | rfl | rfl, _, h⟩ <;> first | (exfalso; norm_num at h; done) | norm_num

/-- The array: shares of counter 7, NaN for counter 8, on the core that has no such counter too. -/
example : (pjdump2microN (readings5 ℚ) C70.containers3 1 true).map (fun m => (m.type, m.names, m.hierarchy, m.data.mem)) =
    .ok ([7, 8], [1, 2, 0], [3, 3, 0], [.num (1 / 3), .num (2 / 3), .nan, .nan]) := by
  decide +kernel

/-- `oaggregate` and `haggregate` on it. -/
example : ∃ m, pjdump2microN (readings5 ℝ) C70.containers3 1 false = .ok m ∧ (m.space.length * m.type.length < 2 ^ 32 →
    m.type.length * m.time.length < 2 ^ 32 → ∀ (fuel : Nat) (randMax : Special ℝ) (rnd : Special ℝ → Special ℝ) (t : Special ℝ),
      oaggregate false (fuel + 1) randMax rnd m.data t = .error .uninit) :=
  ordered C76.apart_aux _ 0 2 input5_aux.rightCounters C70.containers3 1 (by norm_num) (by norm_num) 1 8
    (by simp [readings, readings5, C70.readings4]) (nothing5_aux 1)

example : ∃ m, pjdump2microN (readings5 ℝ) C70.containers3 1 true = .ok m ∧ (m.space.length * m.type.length < 2 ^ 32 →
    m.type.length * m.time.length < 2 ^ 32 → ∀ (fuel : Nat) (randMax : Special ℝ) (rnd : Special ℝ → Special ℝ) (t : Special ℝ),
      haggregate false (fuel + 1) randMax rnd m.data m.hierarchy t = .error .uninit ∧
      (m.space.length * m.time.length < 2147483648 →
        daggregate false (fuel + 1) randMax rnd m.data m.hierarchy t = .error .uninit)) :=
  withHierarchy C76.apart_aux _ 0 2 C70.containers3 0 input5_aux C70.depth3_aux (by decide) 1 (by norm_num) (by norm_num) 1 8
    (by simp [readings, readings5, C70.readings4]) (nothing5_aux 1)

end Lp.C102
