import Verif.Model.RFilter
import Verif.Spec.Cell
import Verif.Props.C53
import Verif.Props.C55

/-!
# C72 — filtering a trace, cutting its states, and finer slices

`Cell m s y t x` (`Spec/Cell.lean`): the array of `m` has the value `x` for resource `s`, type `y` and slice `t`.
-/

namespace Lp.C72
open Spec

section
variable {S Y K : Type} [LinearOrder S] [LinearOrder Y] [Field K] [LinearOrder K] [IsStrictOrderedRing K]

theorem cell_aux {space : List S} {type : List Y} {last : Nat} {f : Nat × Nat × Nat → K} {names : List S} {vh : List Int} {W : S → Y → Nat → K}
    (h : ∀ (i j k : Nat) (s : S) (y : Y), space[i]? = some s → type[j]? = some y → k < last → f (i, j, k) = W s y k)
    {s : S} {y : Y} {t : Nat} {x : K} :
    Cell ⟨space, type, (List.range last).map (· + 1), rArray space.length type.length last f, names, vh⟩ s y t x ↔
      s ∈ space ∧ y ∈ type ∧ 1 ≤ t ∧ t ≤ last ∧ x = W s y (t - 1) := by
  have key : ∀ i j k : Nat, i < space.length → j < type.length → k < last →
      (rArray space.length type.length last f).mem[i + j * space.length + k * (space.length * type.length)]? = some (f (i, j, k)) := by
    intro i j k hi hj hk
    rw [rArray_mem, List.getElem?_map, List.getElem?_range (pos_lt hi hj hk), Option.map_some]
    have h0 : 0 < space.length := by omega
    have h1 : 0 < type.length := by omega
    have e1 : (i + j * space.length + k * (space.length * type.length)) % space.length = i := by
      rw [show i + j * space.length + k * (space.length * type.length) = i + space.length * (j + k * type.length) by ring,
        Nat.add_mul_mod_self_left, Nat.mod_eq_of_lt hi]
    have e2 : (i + j * space.length + k * (space.length * type.length)) / space.length = j + k * type.length := by
      rw [show i + j * space.length + k * (space.length * type.length) = i + space.length * (j + k * type.length) by ring,
        Nat.add_mul_div_left _ _ h0, Nat.div_eq_of_lt hi, Nat.zero_add]
    rw [e1, ← Nat.div_div_eq_div_mul, e2, Nat.add_mul_mod_self_right, Nat.mod_eq_of_lt hj, Nat.add_mul_div_right _ _ h1,
      Nat.div_eq_of_lt hj, Nat.zero_add]
  constructor
  · rintro ⟨i, j, k, hs, hy, hk, hx⟩
    dsimp only at hs hy hk hx
    obtain ⟨hi, -⟩ := List.getElem?_eq_some_iff.mp hs
    obtain ⟨hj, -⟩ := List.getElem?_eq_some_iff.mp hy
    rw [List.getElem?_map] at hk
    obtain ⟨k', hk', rfl⟩ := Option.map_eq_some_iff.mp hk
    obtain ⟨hkl, e⟩ := List.getElem?_eq_some_iff.mp hk'
    rw [List.getElem_range] at e
    subst e
    rw [List.length_range] at hkl
    rw [key i j k hi hj hkl, h i j k s y hs hy hkl] at hx
    exact ⟨List.mem_of_getElem? hs, List.mem_of_getElem? hy, by omega, by omega, by rw [Nat.add_sub_cancel]; exact (Option.some.inj hx).symm⟩
  · rintro ⟨hs, hy, h1, h2, rfl⟩
    obtain ⟨i, hi⟩ := List.getElem?_of_mem hs
    obtain ⟨j, hj⟩ := List.getElem?_of_mem hy
    obtain ⟨hi', -⟩ := List.getElem?_eq_some_iff.mp hi
    obtain ⟨hj', -⟩ := List.getElem?_eq_some_iff.mp hj
    refine ⟨i, j, t - 1, hi, hj, ?_, ?_⟩
    · dsimp only
      rw [List.getElem?_map, List.getElem?_range (by omega), Option.map_some]
      congr 1; omega
    · dsimp only
      rw [key i j (t - 1) hi' hj' (by omega), h i j (t - 1) s y hi hj (by omega)]

theorem states_aux {trace : List (TState S Y K)} {first total : K} {n : Nat} (ht : RightTrace trace first total)
    {resources : List (Container S)} {enable : Bool} {m : Micro S Y K} (e : pjdump2micro trace resources n enable = .ok m) :
    ∃ last, last ≤ n ∧ m.time = (List.range last).map (· + 1) ∧
      (∀ r ∈ trace, ∀ k, Touches first total n r k → k < last) ∧
      (last = 0 ∨ ∃ r ∈ trace, Touches first total n r (last - 1)) ∧
      m.space.Pairwise (· < ·) ∧ m.type.Pairwise (· < ·) ∧
      (∀ s, s ∈ m.space ↔ (∃ r ∈ trace, r.resource = s ∧ ∃ k, Touches first total n r k) ∧
        (enable = true → ∀ c ∈ resources, c.parent ≠ s)) ∧
      (∀ y, y ∈ m.type ↔ ∃ r ∈ trace, r.value = y ∧ ∃ k, Touches first total n r k) ∧
      (∀ s y t x, Cell m s y t x ↔ s ∈ m.space ∧ y ∈ m.type ∧ 1 ≤ t ∧ t ≤ last ∧ x = timeIn trace first total n s y (t - 1) / total) ∧
      (if enable then hierarchyOf resources m.space (rSortUnique (resources.map (fun c => c.parent))).reverse else .ok ([], [0])) =
        .ok (m.names, m.hierarchy) := by
  obtain ⟨last, space, type, f, h1, h2, h3, h4, h5, h6, h7, h8, h9⟩ := pjdump2micro_spec (n := n) ht resources enable
  rw [h9] at e
  cases hh : (if enable then hierarchyOf resources space (rSortUnique (resources.map (fun c => c.parent))).reverse else .ok ([], [0])
    : Res (List S × List Int)) with
  | error x => rw [hh] at e; cases e
  | ok nv =>
    rw [hh] at e
    simp only [Bind.bind, Except.bind, Except.ok.injEq] at e
    subst e
    refine ⟨last, h1, rfl, h2, h3, h4, h5, h6, h7, ?_, hh⟩
    intro s y t x
    exact cell_aux h8

/-- Hidden states.  If the states that remain begin with the trace and end with the trace, hiding the states with values in `hide` removes the
types of `hide` from the array and nothing else: every cell of the new array is one of the old array, and every cell of the old array that
is not 0 and not hidden is in the new array. -/
theorem hidden (trace : List (TState S Y K)) (hide : List Y) (first total : K) (ht : RightTrace trace first total)
    (ht' : RightTrace (hideStates hide trace) first total) (resources : List (Container S)) (n : Nat) (enable : Bool)
    (m m' : Micro S Y K) (e : pjdump2micro trace resources n enable = .ok m)
    (e' : pjdump2micro (hideStates hide trace) resources n enable = .ok m') :
    (∀ y, y ∈ m'.type ↔ y ∈ m.type ∧ y ∉ hide) ∧ (∀ s ∈ m'.space, s ∈ m.space) ∧ (∀ t ∈ m'.time, t ∈ m.time) ∧
    (∀ s y t x, Cell m' s y t x → Cell m s y t x) ∧
    (∀ s y t x, Cell m s y t x → y ∉ hide → x ≠ 0 → Cell m' s y t x) := by
  obtain ⟨l, a1, a2, a3, a4, -, -, a5, a6, a7, -⟩ := states_aux ht e
  obtain ⟨l', b1, b2, b3, b4, -, -, b5, b6, b7, -⟩ := states_aux ht' e'
  have hmem : ∀ r, r ∈ hideStates hide trace ↔ r ∈ trace ∧ r.value ∉ hide := by
    intro r; unfold hideStates; simp [List.mem_filter]
  have hin : ∀ s y k, y ∉ hide → timeIn (hideStates hide trace) first total n s y k = timeIn trace first total n s y k := by
    intro s y k hy
    unfold timeIn hideStates
    rw [List.filter_filter]
    congr 2
    apply List.filter_congr
    intro r _
    by_cases h : r.value = y
    · simp [h, hy]
    · simp [h]
  have htype : ∀ y, y ∈ m'.type ↔ y ∈ m.type ∧ y ∉ hide := by
    intro y
    rw [a6, b6]
    constructor
    · rintro ⟨r, hr, rfl, k, hk⟩
      exact ⟨⟨r, ((hmem r).mp hr).1, rfl, k, hk⟩, ((hmem r).mp hr).2⟩
    · rintro ⟨⟨r, hr, rfl, k, hk⟩, hy⟩
      exact ⟨r, (hmem r).mpr ⟨hr, hy⟩, rfl, k, hk⟩
  have hspace : ∀ s ∈ m'.space, s ∈ m.space := by
    intro s hs
    obtain ⟨⟨r, hr, e1, k, hk⟩, hp⟩ := (b5 s).mp hs
    exact (a5 s).mpr ⟨⟨r, ((hmem r).mp hr).1, e1, k, hk⟩, hp⟩
  have hl : l' ≤ l := by
    rcases b4 with h | ⟨r, hr, hk⟩
    · omega
    · have := a3 r ((hmem r).mp hr).1 _ hk
      omega
  refine ⟨htype, hspace, ?_, ?_, ?_⟩
  · intro t htm
    rw [b2] at htm
    rw [a2]
    obtain ⟨k, hk, rfl⟩ := List.mem_map.mp htm
    exact List.mem_map.mpr ⟨k, List.mem_range.mpr (by have := List.mem_range.mp hk; omega), rfl⟩
  · intro s y t x hc
    obtain ⟨c1, c2, c3, c4, c5⟩ := (b7 s y t x).mp hc
    have hy := (htype y).mp c2
    exact (a7 s y t x).mpr ⟨hspace s c1, hy.1, c3, by omega, by rw [c5, hin _ _ _ hy.2]⟩
  · intro s y t x hc hy hx
    obtain ⟨c1, c2, c3, c4, c5⟩ := (a7 s y t x).mp hc
    have hpos : timeIn (hideStates hide trace) first total n s y (t - 1) ≠ 0 := by
      rw [hin _ _ _ hy]
      intro h0
      rw [h0, zero_div] at c5
      exact hx c5
    obtain ⟨r, hr, hrs, hov⟩ : ∃ r ∈ hideStates hide trace, r.resource = s ∧ Touches first total n r (t - 1) := by
      by_contra hno
      apply hpos
      unfold timeIn
      apply List.sum_eq_zero
      intro v hv
      obtain ⟨r, hr, rfl⟩ := List.mem_map.mp hv
      obtain ⟨hr1, hr2⟩ := List.mem_filter.mp hr
      simp only [decide_eq_true_eq] at hr2
      apply overlap_zero
      intro ⟨h1, h2⟩
      exact hno ⟨r, hr1, hr2.1, by omega, h1, h2⟩
    have := b3 r hr _ hov
    exact (b7 s y t x).mpr ⟨(b5 s).mpr ⟨⟨r, hr, hrs, _, hov⟩, ((a5 s).mp c1).2⟩, (htype y).mpr ⟨c2, hy⟩, c3, by omega,
      by rw [c5, hin _ _ _ hy]⟩

/-- Cutting a state into two consecutive ones changes nothing. -/
theorem cut (A B : List (TState S Y K)) (r : TState S Y K) (t : K) (h1 : r.start ≤ t) (h2 : t ≤ r.end) (first total : K)
    (ht : RightTrace (A ++ r :: B) first total) (resources : List (Container S)) (n : Nat) (enable : Bool) :
    pjdump2micro (A ++ before r t :: after r t :: B) resources n enable = pjdump2micro (A ++ r :: B) resources n enable := by
  have hm : ∀ x, x ∈ A ++ r :: B ↔ x ∈ A ∨ x = r ∨ x ∈ B := by intro x; simp
  have hm' : ∀ x, x ∈ A ++ before r t :: after r t :: B ↔ x ∈ A ∨ x = before r t ∨ x = after r t ∨ x ∈ B := by intro x; simp
  have hr : r ∈ A ++ r :: B := (hm r).mpr (.inr (.inl rfl))
  have hall : ∀ P : TState S Y K → Prop, (∀ x ∈ A ++ r :: B, P x) → P (before r t) → P (after r t) →
      ∀ x ∈ A ++ before r t :: after r t :: B, P x := by
    intro P h p q x hx
    rcases (hm' x).mp hx with h' | rfl | rfl | h'
    · exact h x ((hm x).mpr (.inl h'))
    · exact p
    · exact q
    · exact h x ((hm x).mpr (.inr (.inr h')))
  have ht' : RightTrace (A ++ before r t :: after r t :: B) first total := by
    refine ⟨?_, hall _ ht.firstLe (ht.firstLe r hr) ((ht.firstLe r hr).trans h1), ?_,
      hall _ ht.lastLe (h2.trans (ht.lastLe r hr)) (ht.lastLe r hr), hall _ ht.duration rfl rfl, hall _ ht.order h1 h2, ht.pos⟩
    · obtain ⟨x, hx, e⟩ := ht.firstEx
      rcases (hm x).mp hx with h' | rfl | h'
      · exact ⟨x, (hm' x).mpr (.inl h'), e⟩
      · exact ⟨before x t, (hm' _).mpr (.inr (.inl rfl)), e⟩
      · exact ⟨x, (hm' x).mpr (.inr (.inr (.inr h'))), e⟩
    · obtain ⟨x, hx, e⟩ := ht.lastEx
      rcases (hm x).mp hx with h' | rfl | h'
      · exact ⟨x, (hm' x).mpr (.inl h'), e⟩
      · exact ⟨after x t, (hm' _).mpr (.inr (.inr (.inl rfl))), e⟩
      · exact ⟨x, (hm' x).mpr (.inr (.inr (.inr h'))), e⟩
  apply C53.determined_aux ht' ht
  · intro s y k
    constructor
    · rintro ⟨x, hx, rs, rv, hk⟩
      rcases (hm' x).mp hx with h' | rfl | rfl | h'
      · exact ⟨x, (hm x).mpr (.inl h'), rs, rv, hk⟩
      · exact ⟨r, hr, rs, rv, hk.1, hk.2.1.trans_le h2, hk.2.2⟩
      · exact ⟨r, hr, rs, rv, hk.1, hk.2.1, h1.trans_lt hk.2.2⟩
      · exact ⟨x, (hm x).mpr (.inr (.inr h')), rs, rv, hk⟩
    · rintro ⟨x, hx, rs, rv, hk⟩
      rcases (hm x).mp hx with h' | rfl | h'
      · exact ⟨x, (hm' x).mpr (.inl h'), rs, rv, hk⟩
      · rcases lt_or_ge (sliceAt first total n k) t with hlt | hge
        · exact ⟨before x t, (hm' _).mpr (.inr (.inl rfl)), rs, rv, hk.1, hlt, hk.2.2⟩
        · exact ⟨after x t, (hm' _).mpr (.inr (.inr (.inl rfl))), rs, rv, hk.1, hk.2.1,
            hge.trans_lt (slice_lt ht.pos hk.1)⟩
      · exact ⟨x, (hm' x).mpr (.inr (.inr (.inr h'))), rs, rv, hk⟩
  · intro s y k
    congr 1
    unfold timeIn
    simp only [List.filter_append, List.map_append, List.sum_append, List.filter_cons]
    congr 1
    have e1 : (before r t).resource = r.resource := rfl
    have e2 : (before r t).value = r.value := rfl
    have e3 : (after r t).resource = r.resource := rfl
    have e4 : (after r t).value = r.value := rfl
    rw [e1, e2, e3, e4]
    split
    · simp only [List.map_cons, List.sum_cons]
      rw [← add_assoc]
      congr 1
      exact overlap_split' h1 h2 (sliceAt_mono ht.pos n (Nat.le_succ k))
    · rfl

theorem fine_aux {first total : K} {n c : Nat} (hc : 0 < c) (k : Nat) :
    sliceAt first total (n * c) (c * k) = sliceAt first total n k := by
  unfold sliceAt
  have : (c : K) ≠ 0 := by exact_mod_cast hc.ne'
  rcases Nat.eq_zero_or_pos n with rfl | hn
  · simp
  · have : (n : K) ≠ 0 := by exact_mod_cast hn.ne'
    push_cast
    field_simp

theorem overlap_fine_aux {first total : K} (hp : 0 < total) {N : Nat} {a b : K} (hab : a ≤ b) (k c : Nat) :
    ∑ j ∈ Finset.range c, overlap a b (sliceAt first total N (k + j)) (sliceAt first total N (k + j + 1)) =
      overlap a b (sliceAt first total N k) (sliceAt first total N (k + c)) := by
  induction c with
  | zero =>
    simp only [Finset.range_zero, Finset.sum_empty, Nat.add_zero]
    unfold overlap
    symm
    apply max_eq_left
    have := min_le_right b (sliceAt first total N k)
    have := le_max_right a (sliceAt first total N k)
    linarith
  | succ c ih =>
    rw [Finset.sum_range_succ, ih]
    exact overlap_split hab (sliceAt_mono hp N (by omega)) (sliceAt_mono hp N (by omega))

theorem timeIn_fine_aux {trace : List (TState S Y K)} {first total : K} (ht : RightTrace trace first total) {n c : Nat} (hc : 0 < c)
    (s : S) (y : Y) (k : Nat) :
    ∑ j ∈ Finset.range c, timeIn trace first total (n * c) s y (c * k + j) = timeIn trace first total n s y k := by
  unfold timeIn
  rw [sum_list_finset]
  congr 1
  apply List.map_congr_left
  intro r hr
  rw [overlap_fine_aux ht.pos (ht.order r (List.mem_filter.mp hr).1), fine_aux hc, show c * k + c = c * (k + 1) by ring, fine_aux hc]

/-- A state of positive length overlaps slice `k` of `n` exactly if it overlaps one of the `c` slices of `n * c` it consists of. -/
theorem touches_fine_aux {first total : K} (hp : 0 < total) {n c : Nat} (hc : 0 < c) {r : TState S Y K} (hr : r.start < r.end) (k : Nat) :
    Touches first total n r k ↔ ∃ j, j < c ∧ Touches first total (n * c) r (c * k + j) := by
  have hs0 : sliceAt first total n k = sliceAt first total (n * c) (c * k) := (fine_aux hc k).symm
  have hs1 : sliceAt first total n (k + 1) = sliceAt first total (n * c) (c * k + c) := by
    rw [← fine_aux hc (k + 1)]; congr 1
  constructor
  · rintro ⟨hk, h1, h2⟩
    have hkc : c * k + c ≤ n * c := by
      have : c * (k + 1) ≤ c * n := Nat.mul_le_mul_left c hk
      rw [Nat.mul_comm n c]; linarith [this]
    by_contra hno
    push Not at hno
    have hno : ∀ j, j < c → ¬ (sliceAt first total (n * c) (c * k + j) < r.end ∧ r.start < sliceAt first total (n * c) (c * k + j + 1)) := by
      intro j hj h
      exact hno j hj ⟨by omega, h.1, h.2⟩
    have : overlap r.start r.end (sliceAt first total n k) (sliceAt first total n (k + 1)) = 0 := by
      rw [hs0, hs1, ← overlap_fine_aux hp hr.le (c * k) c]
      apply Finset.sum_eq_zero
      intro j hj
      exact overlap_zero (hno j (Finset.mem_range.mp hj))
    have hpos := (overlap_pos hr (slice_lt (first := first) hp hk)).mpr ⟨h1, h2⟩
    rw [this] at hpos
    exact lt_irrefl _ hpos
  · rintro ⟨j, hj, hk, h1, h2⟩
    refine ⟨?_, ?_, ?_⟩
    · by_contra h
      have : n * c ≤ c * k := by rw [Nat.mul_comm]; exact Nat.mul_le_mul_left c (by omega)
      omega
    · rw [hs0]
      exact (sliceAt_mono hp (n * c) (by omega)).trans_lt h1
    · rw [hs1]
      exact h2.trans_le (sliceAt_mono hp (n * c) (by omega))

/-- Finer slices.  With `n * c` instead of `n` slices (states of positive length) the resources, types, names and hierarchy are the same, and
each cell is the sum of the `c` cells it is divided into; those missing in the finer array are 0. -/
theorem finer (trace : List (TState S Y K)) (first total : K) (ht : RightTrace trace first total) (hlen : ∀ r ∈ trace, r.start < r.end)
    (resources : List (Container S)) (n c : Nat) (hc : 0 < c) (enable : Bool) (m : Micro S Y K)
    (e : pjdump2micro trace resources n enable = .ok m) :
    ∃ m', pjdump2micro trace resources (n * c) enable = .ok m' ∧
      m'.space = m.space ∧ m'.type = m.type ∧ m'.names = m.names ∧ m'.hierarchy = m.hierarchy ∧
      (∀ k, k + 1 ∈ m.time ↔ ∃ j, j < c ∧ c * k + j + 1 ∈ m'.time) ∧
      ∀ s y k x, Cell m s y (k + 1) x → ∃ g : Nat → K, x = ∑ j ∈ Finset.range c, g j ∧
        ∀ j, j < c → (Cell m' s y (c * k + j + 1) (g j) ∨ (c * k + j + 1 ∉ m'.time ∧ g j = 0)) := by
  obtain ⟨l, a1, a2, a3, a4, as, at', a5, a6, a7, a8⟩ := states_aux ht e
  obtain ⟨l', space, type, f, b1, b2, b3, b4, b5, b6, b7, b8, b9⟩ := pjdump2micro_spec (n := n * c) ht resources enable
  have hT : ∀ r ∈ trace, (∃ k, Touches first total (n * c) r k) ↔ ∃ k, Touches first total n r k := by
    intro r hr
    constructor
    · rintro ⟨k, hk⟩
      refine ⟨k / c, (touches_fine_aux ht.pos hc (hlen r hr) _).mpr ⟨k % c, Nat.mod_lt _ hc, ?_⟩⟩
      rw [Nat.div_add_mod]; exact hk
    · rintro ⟨k, hk⟩
      obtain ⟨j, _, hj⟩ := (touches_fine_aux ht.pos hc (hlen r hr) _).mp hk
      exact ⟨_, hj⟩
  have es : space = m.space := by
    apply sorted_ext b4 as
    intro s
    rw [a5, b6]
    apply and_congr _ Iff.rfl
    constructor
    · rintro ⟨r, hr, e1, hk⟩; exact ⟨r, hr, e1, (hT r hr).mp hk⟩
    · rintro ⟨r, hr, e1, hk⟩; exact ⟨r, hr, e1, (hT r hr).mpr hk⟩
  have ey : type = m.type := by
    apply sorted_ext b5 at'
    intro y
    rw [a6, b7]
    constructor
    · rintro ⟨r, hr, e1, hk⟩; exact ⟨r, hr, e1, (hT r hr).mp hk⟩
    · rintro ⟨r, hr, e1, hk⟩; exact ⟨r, hr, e1, (hT r hr).mpr hk⟩
  rw [es, a8] at b9
  simp only [Bind.bind, Except.bind] at b9
  subst es ey
  have hll : ∀ k, k < l ↔ ∃ j, j < c ∧ c * k + j < l' := by
    intro k
    constructor
    · intro hk
      rcases a4 with h | ⟨r, hr, htr⟩
      · omega
      · obtain ⟨j, hj, h⟩ := (touches_fine_aux ht.pos hc (hlen r hr) _).mp htr
        have h1 := b2 r hr _ h
        rcases Nat.lt_or_ge k (l - 1) with h2 | h2
        · refine ⟨0, hc, ?_⟩
          have : c * k ≤ c * (l - 1) := Nat.mul_le_mul_left c h2.le
          omega
        · have : k = l - 1 := by omega
          exact ⟨j, hj, by rw [this]; exact h1⟩
    · rintro ⟨j, hj, h⟩
      rcases b3 with h0 | ⟨r, hr, htr⟩
      · omega
      · have h1 := (touches_fine_aux (k := (l' - 1) / c) ht.pos hc (hlen r hr)).mpr
          ⟨(l' - 1) % c, Nat.mod_lt _ hc, by rw [Nat.div_add_mod]; exact htr⟩
        have h2 := a3 r hr _ h1
        have h3 : k ≤ (l' - 1) / c := by
          rw [Nat.le_div_iff_mul_le hc, Nat.mul_comm]
          omega
        omega
  refine ⟨_, b9, rfl, rfl, rfl, rfl, ?_, ?_⟩
  · intro k
    rw [a2]
    simp only [List.mem_map, List.mem_range, Nat.add_right_cancel_iff, exists_eq_right]
    exact hll k
  · intro s y k x hcell
    obtain ⟨c1, c2, c3, c4, c5⟩ := (a7 s y (k + 1) x).mp hcell
    rw [Nat.add_sub_cancel] at c5
    refine ⟨fun j => timeIn trace first total (n * c) s y (c * k + j) / total, ?_, ?_⟩
    · rw [c5, ← timeIn_fine_aux ht hc, Finset.sum_div]
    · intro j hj
      rcases Nat.lt_or_ge (c * k + j) l' with h | h
      · left
        exact (cell_aux b8).mpr ⟨c1, c2, by omega, h, by rw [Nat.add_sub_cancel]⟩
      · right
        constructor
        · simp only [List.mem_map, List.mem_range, Nat.add_right_cancel_iff, exists_eq_right]
          omega
        · have hkn : c * k + j < n * c := by
            have : c * (k + 1) ≤ c * n := Nat.mul_le_mul_left c (by omega)
            rw [Nat.mul_comm n c]
            have e1 : c * (k + 1) = c * k + c := by ring
            omega
          dsimp only
          rw [timeIn_zero b2 s y hkn h, zero_div]

theorem counters_aux {trace : List (TCounter S Y K)} {first total : K} {n : Nat} (hn : 0 < n) (ht : RightCounters trace first total)
    {resources : List (Container S)} {enable : Bool} {m : Micro S Y K} (e : pjdump2microC trace resources n enable = .ok m) :
    ∃ last, last ≤ n ∧ m.time = (List.range last).map (· + 1) ∧
      (∀ s y k, k < n → 0 < watched trace first total n s y k → k < last) ∧
      (last = 0 ∨ ∃ s y, 0 < watched trace first total n s y (last - 1)) ∧
      (∀ s, s ∈ m.space ↔ (∃ y, 2 ≤ (readings trace s y).length) ∧ (enable = true → ∀ c ∈ resources, c.parent ≠ s)) ∧
      (∀ y, y ∈ m.type ↔ ∃ s, 2 ≤ (readings trace s y).length) ∧
      (∀ s y t x, Cell m s y t x ↔ s ∈ m.space ∧ y ∈ m.type ∧ 1 ≤ t ∧ t ≤ last ∧
        x = meanIn trace first total n s y (t - 1) / meansOf trace first total n y) := by
  obtain ⟨last, space, type, f, h9, h1, h2, h3, h4, h6, h5, h7, h8⟩ := C55.cube_aux ht resources hn enable
  rw [h9] at e
  cases hh : (if enable then hierarchyOf resources space (rSortUnique (resources.map (fun c => c.parent))).reverse else .ok ([], [0])
    : Res (List S × List Int)) with
  | error x => rw [hh] at e; cases e
  | ok nv =>
    rw [hh] at e
    simp only [Bind.bind, Except.bind, Except.ok.injEq] at e
    subst e
    refine ⟨last, h1, rfl, h2, h3, h6, h7, ?_⟩
    intro s y t x
    exact cell_aux (W := fun s y k => meanIn trace first total n s y k / meansOf trace first total n y) h8

/-- Kept counters.  If the readings that remain begin with the trace and end with the trace, keeping the counters of the types `keep` leaves
exactly these types in the array, with the same shares. -/
theorem kept (trace : List (TCounter S Y K)) (keep : List Y) (first total : K) (ht : RightCounters trace first total)
    (ht' : RightCounters (keepTypes keep trace) first total) (resources : List (Container S)) (n : Nat) (hn : 0 < n) (enable : Bool)
    (m m' : Micro S Y K) (e : pjdump2microC trace resources n enable = .ok m)
    (e' : pjdump2microC (keepTypes keep trace) resources n enable = .ok m') :
    (∀ y, y ∈ m'.type ↔ y ∈ m.type ∧ y ∈ keep) ∧ (∀ s ∈ m'.space, s ∈ m.space) ∧ (∀ t ∈ m'.time, t ∈ m.time) ∧
    (∀ s y t x, Cell m' s y t x → Cell m s y t x) ∧
    (∀ s y t x, Cell m s y t x → y ∈ keep → x ≠ 0 → Cell m' s y t x) := by
  obtain ⟨l, a1, a2, a3, a4, a5, a6, a7⟩ := counters_aux hn ht e
  obtain ⟨l', b1, b2, b3, b4, b5, b6, b7⟩ := counters_aux hn ht' e'
  have hrd : ∀ s y, y ∈ keep → readings (keepTypes keep trace) s y = readings trace s y := by
    intro s y hy
    unfold readings keepTypes
    rw [List.filter_filter]
    apply List.filter_congr
    intro r _
    by_cases h : r.value.1 = y
    · simp [h, hy]
    · simp [h]
  have hnone : ∀ s y, y ∉ keep → readings (keepTypes keep trace) s y = [] := by
    intro s y hy
    unfold readings keepTypes
    rw [List.filter_filter, List.filter_eq_nil_iff]
    intro r _ h
    simp only [Bool.and_eq_true, decide_eq_true_eq] at h
    exact hy (h.1.2 ▸ h.2)
  have hkeep : ∀ s y, 2 ≤ (readings (keepTypes keep trace) s y).length → y ∈ keep ∧ 2 ≤ (readings trace s y).length := by
    intro s y h
    by_cases hy : y ∈ keep
    · exact ⟨hy, by rw [← hrd s y hy]; exact h⟩
    · rw [hnone s y hy] at h; simp at h
  have hpc : ∀ s y, y ∈ keep → pieces (keepTypes keep trace) s y = pieces trace s y := by
    intro s y hy; unfold pieces; rw [hrd s y hy]
  have hw : ∀ s y k, y ∈ keep → watched (keepTypes keep trace) first total n s y k = watched trace first total n s y k := by
    intro s y k hy; unfold watched; rw [hpc s y hy]
  have hct : ∀ s y k, y ∈ keep → counted (keepTypes keep trace) first total n s y k = counted trace first total n s y k := by
    intro s y k hy; unfold counted; rw [hpc s y hy]
  have hmi : ∀ s y k, y ∈ keep → meanIn (keepTypes keep trace) first total n s y k = meanIn trace first total n s y k := by
    intro s y k hy; unfold meanIn; rw [hct s y k hy, hw s y k hy]
  have hz : ∀ s y k, readings trace s y = [] → meanIn trace first total n s y k = 0 := by
    intro s y k h
    unfold meanIn counted watched pieces
    rw [h]; simp
  have hmo : ∀ y, y ∈ keep → meansOf (keepTypes keep trace) first total n y = meansOf trace first total n y := by
    intro y hy
    unfold meansOf
    have e1 : ((((keepTypes keep trace).map (fun r => r.resource)).dedup).map
        (fun s => ∑ k ∈ Finset.range n, meanIn (keepTypes keep trace) first total n s y k)).sum =
        ((((keepTypes keep trace).map (fun r => r.resource)).dedup).map (fun s => ∑ k ∈ Finset.range n, meanIn trace first total n s y k)).sum := by
      congr 1
      apply List.map_congr_left
      intro s _
      exact Finset.sum_congr rfl (fun k _ => hmi s y k hy)
    rw [e1]
    have tf : ∀ (L : List S), L.Nodup → (L.map (fun s => ∑ k ∈ Finset.range n, meanIn trace first total n s y k)).sum =
        ∑ s ∈ L.toFinset, ∑ k ∈ Finset.range n, meanIn trace first total n s y k := by
      intro L hL
      exact (List.sum_toFinset _ hL).symm
    rw [tf _ (List.nodup_dedup _), tf _ (List.nodup_dedup _)]
    apply Finset.sum_subset
    · intro s hs
      simp only [List.mem_toFinset, List.mem_dedup, List.mem_map] at hs ⊢
      obtain ⟨r, hr, rfl⟩ := hs
      exact ⟨r, (List.mem_filter.mp hr).1, rfl⟩
    · intro s _ hs
      simp only [List.mem_toFinset, List.mem_dedup, List.mem_map, not_exists, not_and] at hs
      apply Finset.sum_eq_zero
      intro k _
      apply hz
      rw [← hrd s y hy]
      unfold readings
      rw [List.filter_eq_nil_iff]
      intro r hr h
      simp only [decide_eq_true_eq] at h
      exact hs r hr h.1
  have htype : ∀ y, y ∈ m'.type ↔ y ∈ m.type ∧ y ∈ keep := by
    intro y
    rw [a6, b6]
    constructor
    · rintro ⟨s, hs⟩
      exact ⟨⟨s, (hkeep s y hs).2⟩, (hkeep s y hs).1⟩
    · rintro ⟨⟨s, hs⟩, hy⟩
      exact ⟨s, by rw [hrd s y hy]; exact hs⟩
  have hspace : ∀ s ∈ m'.space, s ∈ m.space := by
    intro s hs
    obtain ⟨⟨y, hy⟩, hp⟩ := (b5 s).mp hs
    exact (a5 s).mpr ⟨⟨y, (hkeep s y hy).2⟩, hp⟩
  have hwk : ∀ s y k, 0 < watched (keepTypes keep trace) first total n s y k → y ∈ keep := by
    intro s y k h
    obtain ⟨x, hx, _⟩ := watched_pos.mp h
    exact (hkeep s y (pieces_nonempty.mp (List.ne_nil_of_mem hx))).1
  have hl : l' ≤ l := by
    rcases b4 with h | ⟨s, y, h⟩
    · omega
    · rcases Nat.eq_zero_or_pos l' with h0 | h0
      · omega
      · have hy := hwk s y _ h
        rw [hw s y _ hy] at h
        have := a3 s y _ (by omega) h
        omega
  refine ⟨htype, hspace, ?_, ?_, ?_⟩
  · intro t htm
    rw [b2] at htm
    rw [a2]
    obtain ⟨k, hk, rfl⟩ := List.mem_map.mp htm
    exact List.mem_map.mpr ⟨k, List.mem_range.mpr (by have := List.mem_range.mp hk; omega), rfl⟩
  · intro s y t x hc
    obtain ⟨c1, c2, c3, c4, c5⟩ := (b7 s y t x).mp hc
    have hy := (htype y).mp c2
    exact (a7 s y t x).mpr ⟨hspace s c1, hy.1, c3, by omega, by rw [c5, hmi _ _ _ hy.2, hmo _ hy.2]⟩
  · intro s y t x hc hy hx
    obtain ⟨c1, c2, c3, c4, c5⟩ := (a7 s y t x).mp hc
    have hpos : 0 < watched trace first total n s y (t - 1) := by
      by_contra h
      apply hx
      rw [c5]
      have h0 : watched trace first total n s y (t - 1) = 0 := le_antisymm (not_lt.mp h) (watched_nonneg s y _)
      unfold meanIn
      rw [h0, div_zero, max_self, zero_div]
    have hpos' := hpos
    rw [← hw s y _ hy] at hpos'
    have := b3 s y _ (by omega) hpos'
    obtain ⟨x', hx', _⟩ := watched_pos.mp hpos'
    exact (b7 s y t x).mpr ⟨(b5 s).mpr ⟨⟨y, pieces_nonempty.mp (List.ne_nil_of_mem hx')⟩, ((a5 s).mp c1).2⟩, (htype y).mpr ⟨c2, hy⟩, c3, by omega,
      by rw [c5, hmi _ _ _ hy, hmo _ hy]⟩

end

/-! ### The hypotheses hold -/

/-- Two resources; resource 0 is idle (2) for a while, and so is resource 1 at the end. -/
def trace3 : List (TState Nat Nat ℚ) :=
  [⟨0, 1, 2, 1, 0⟩, ⟨1, 1, 3, 2, 1⟩, ⟨0, 2, 3, 1, 2⟩, ⟨0, 3, 5, 2, 1⟩, ⟨1, 3, 5, 2, 2⟩]

theorem trace3_aux : RightTrace trace3 1 4 ∧ RightTrace (hideStates [2] trace3) 1 4 := by
  constructor <;> constructor <;> decide +kernel

/-- The idle states are hidden: type 2 disappears, all else is as before. -/
example : (pjdump2micro trace3 [] 2 false).map (fun m => (m.space, m.type, m.time, m.data.mem)) =
      .ok ([0, 1], [0, 1, 2], [1, 2], [1 / 4, 0, 0, 1 / 2, 1 / 4, 0, 0, 0, 1 / 2, 0, 0, 1 / 2]) ∧
    (pjdump2micro (hideStates [2] trace3) [] 2 false).map (fun m => (m.space, m.type, m.time, m.data.mem)) =
      .ok ([0, 1], [0, 1], [1, 2], [1 / 4, 0, 0, 1 / 2, 0, 0, 1 / 2, 0]) := by
  decide +kernel

example : ∃ m m', pjdump2micro trace3 [] 2 false = .ok m ∧ pjdump2micro (hideStates [2] trace3) [] 2 false = .ok m' ∧
    ∀ s y t x, Cell m' s y t x → Cell m s y t x := by
  obtain ⟨_, _, _, _, e, _⟩ := C53.cube _ _ _ trace3_aux.1 [] 2
  obtain ⟨_, _, _, _, e', _⟩ := C53.cube _ _ _ trace3_aux.2 [] 2
  exact ⟨_, _, e, e', (hidden trace3 [2] 1 4 trace3_aux.1 trace3_aux.2 [] 2 false _ _ e e').2.2.2.1⟩

/-- If what is hidden is all there is at the end of the trace, the slices are others. -/
example : (pjdump2micro ([⟨0, 0, 2, 2, 0⟩, ⟨0, 2, 4, 2, 2⟩] : List (TState Nat Nat ℚ)) [] 2 false).map (fun m => (m.type, m.data.mem)) =
      .ok ([0, 2], [1 / 2, 0, 0, 1 / 2]) ∧
    (pjdump2micro (hideStates [2] ([⟨0, 0, 2, 2, 0⟩, ⟨0, 2, 4, 2, 2⟩] : List (TState Nat Nat ℚ))) [] 2 false).map (fun m => (m.type, m.data.mem)) =
      .ok ([0], [1 / 2, 1 / 2]) := by
  decide +kernel

/-- The third state, cut at time 4. -/
example : pjdump2micro [⟨0, 1, 2, 1, 0⟩, ⟨1, 1, 3, 2, 1⟩, ⟨0, 2, 3, 1, 2⟩, ⟨0, 3, 4, 1, 1⟩, ⟨0, 4, 5, 1, 1⟩, ⟨1, 3, 5, 2, 2⟩] [] 3 false =
    pjdump2micro trace3 [] 3 false := by
  have h := cut [⟨0, 1, 2, 1, 0⟩, ⟨1, 1, 3, 2, 1⟩, ⟨0, 2, 3, 1, 2⟩] [⟨1, 3, 5, 2, 2⟩] (⟨0, 3, 5, 2, 1⟩ : TState Nat Nat ℚ) 4 (by decide +kernel)
    (by decide +kernel) 1 4 trace3_aux.1 [] 3 false
  have e1 : before (⟨0, 3, 5, 2, 1⟩ : TState Nat Nat ℚ) 4 = ⟨0, 3, 4, 1, 1⟩ := by unfold before; congr 1; norm_num
  have e2 : after (⟨0, 3, 5, 2, 1⟩ : TState Nat Nat ℚ) 4 = ⟨0, 4, 5, 1, 1⟩ := by unfold after; congr 1; norm_num
  rw [e1, e2] at h
  exact h

/-- Two slices, and each of them divided into two. -/
example : (pjdump2micro trace3 [] (2 * 2) false).map (fun m => (m.space, m.type, m.time, m.data.mem)) =
      .ok ([0, 1], [0, 1, 2], [1, 2, 3, 4],
        [1 / 4, 0, 0, 1 / 4, 0, 0, 0, 0, 0, 1 / 4, 1 / 4, 0, 0, 0, 1 / 4, 0, 0, 1 / 4, 0, 0, 1 / 4, 0, 0, 1 / 4]) := by
  decide +kernel

example : ∃ m m', pjdump2micro trace3 [] 2 false = .ok m ∧ pjdump2micro trace3 [] (2 * 2) false = .ok m' ∧ m'.space = m.space := by
  obtain ⟨_, _, _, _, e, _⟩ := C53.cube _ _ _ trace3_aux.1 [] 2
  obtain ⟨m', e', h, _⟩ := finer trace3 1 4 trace3_aux.1 (by decide +kernel) [] 2 2 (by omega) false _ e
  exact ⟨_, m', e, e', h⟩

/-- Resource 0 with the counters 7 and 8, resource 1 with the counter 8. -/
def counters3 : List (TCounter Nat Nat ℚ) :=
  [⟨0, 1, 2, 1, (7, 5)⟩, ⟨0, 2, 5, 3, (7, 4)⟩, ⟨1, 1, 3, 2, (8, 9)⟩, ⟨1, 3, 5, 2, (8, 8)⟩, ⟨0, 1, 4, 3, (8, 2)⟩, ⟨0, 4, 5, 1, (8, 6)⟩]

theorem length_aux {trace : List (TCounter Nat Nat ℚ)} (h : ∀ r ∈ trace, r.start < r.end) (s y : Nat) (x : ℚ × ℚ × ℚ)
    (hx : x ∈ pieces trace s y) : x.1 < x.2.1 := by
  unfold pieces at hx
  obtain ⟨p, hp, rfl⟩ := List.mem_map.mp hx
  have := (List.of_mem_zip hp).1
  exact h _ (List.mem_filter.mp this).1

theorem counters3_aux : RightCounters counters3 1 4 ∧ RightCounters (keepTypes [8] counters3) 1 4 := by
  constructor
  · exact ⟨by decide +kernel, by decide +kernel, by decide +kernel, by decide +kernel, by decide +kernel, length_aux (by decide +kernel),
      by norm_num⟩
  · exact ⟨by decide +kernel, by decide +kernel, by decide +kernel, by decide +kernel, by decide +kernel, length_aux (by decide +kernel),
      by norm_num⟩

/-- With counter 8 only. -/
example : (pjdump2microC counters3 [] 2 false).map (fun m => (m.space, m.type, m.time, m.data.mem)) =
      .ok ([0, 1], [7, 8], [1, 2], [1, 0, 1 / 4, 1 / 2, 0, 0, 1 / 4, 0]) ∧
    (pjdump2microC (keepTypes [8] counters3) [] 2 false).map (fun m => (m.space, m.type, m.time, m.data.mem)) =
      .ok ([0, 1], [8], [1, 2], [1 / 4, 1 / 2, 1 / 4, 0]) := by
  decide +kernel

example : ∃ m m', pjdump2microC counters3 [] 2 false = .ok m ∧ pjdump2microC (keepTypes [8] counters3) [] 2 false = .ok m' ∧
    ∀ y, y ∈ m'.type ↔ y ∈ m.type ∧ y ∈ [8] := by
  obtain ⟨_, _, _, _, e, _⟩ := C55.cube _ _ _ counters3_aux.1 [] 2 (by omega)
  obtain ⟨_, _, _, _, e', _⟩ := C55.cube _ _ _ counters3_aux.2 [] 2 (by omega)
  exact ⟨_, _, e, e', (kept counters3 [8] 1 4 counters3_aux.1 counters3_aux.2 [] 2 (by omega) false _ _ e e').1⟩

end Lp.C72
