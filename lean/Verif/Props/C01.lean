import Verif.Proofs.UTM
import Mathlib.Algebra.BigOperators.Intervals
import Mathlib.Combinatorics.Pigeonhole

/-!
# C01 — cells of the triangular matrix are independent
-/

namespace Lp.C01

/-- What a correct layout means: `slot` maps the cells `(i,j)`, `i ≤ j < n`, bijectively to `0..slots-1`. -/
structure Layout (n slots : Nat) (slot : Nat → Nat → Nat) : Prop where
  inRange : ∀ i j, i ≤ j → j < n → slot i j < slots
  distinct : ∀ i j i' j', i ≤ j → j < n → i' ≤ j' → j' < n → slot i j = slot i' j' → i = i' ∧ j = j'
  onto : ∀ s, s < slots → ∃ i j, i ≤ j ∧ j < n ∧ slot i j = s

/-- For sizes up to 65535 the layout is right, has `n(n+1)/2` slots, and the whole-interval cell `(0,n-1)` is the
last slot. -/
theorem layout (n : Nat) (hn : n ≤ 65535) :
    Layout n (UTM.elements n) (UTM.index n) ∧ UTM.elements n = n * (n + 1) / 2 ∧
      (0 < n → UTM.index n 0 (n - 1) = UTM.elements n - 1) :=
  ⟨⟨fun _ _ h1 h2 => UTM.index_lt hn h1 h2,
    fun _ _ _ _ h1 h2 h3 h4 h => UTM.index_inj hn h1 h2 h3 h4 h,
    fun _ hs => UTM.index_surj hn hs⟩,
   by rw [UTM.elements_eq hn, Nat.mul_comm], UTM.index_last hn⟩

/-- A history of writes: `(i, j, value)` in the order in which they are made. -/
abbrev Writes (α : Type) := List (Nat × Nat × α)

/-- Value last written to `(i,j)` in a history, `v0` if there is none. -/
def lastWritten {α : Type} (v0 : α) (i j : Nat) : Writes α → α
  | [] => v0
  | w :: ws => if ∃ w' ∈ ws, w'.1 = i ∧ w'.2.1 = j then lastWritten v0 i j ws
               else if w.1 = i ∧ w.2.1 = j then w.2.2 else v0

theorem lastWritten_append {α : Type} (v0 x : α) (i j a b : Nat) (ws : Writes α) :
    lastWritten v0 i j (ws ++ [(a, b, x)]) = if a = i ∧ b = j then x else lastWritten v0 i j ws := by
  induction ws with
  | nil => simp [lastWritten]
  | cons w ws ih =>
    by_cases h : a = i ∧ b = j
    · simp only [if_pos h] at ih
      have e : ∃ w' ∈ ws ++ [(a, b, x)], w'.1 = i ∧ w'.2.1 = j := ⟨(a, b, x), by simp, h⟩
      simp only [List.cons_append, lastWritten, if_pos e, ih, if_pos h]
    · have e : (∃ w' ∈ ws ++ [(a, b, x)], w'.1 = i ∧ w'.2.1 = j) ↔ ∃ w' ∈ ws, w'.1 = i ∧ w'.2.1 = j := by
        constructor
        · rintro ⟨w', hw, h'⟩
          rcases List.mem_append.mp hw with hw | hw
          · exact ⟨w', hw, h'⟩
          · simp only [List.mem_singleton] at hw
            subst hw; exact absurd h' h
        · rintro ⟨w', hw, h'⟩; exact ⟨w', by simp [hw], h'⟩
      simp only [if_neg h] at ih
      simp only [List.cons_append, lastWritten, e, ih, if_neg h]

/-- After any history of writes to valid cells of a new matrix, none of them faults and every cell reads as the
value last written to it; the matrix still has the size `n` and `n(n+1)/2` elements. -/
theorem readsLastWrite {α : Type} (n : Nat) (hn : n ≤ 65535) (v0 : α) (ws : Writes α)
    (hws : ∀ w ∈ ws, w.1 ≤ w.2.1 ∧ w.2.1 < n) :
    ∃ m, forEach (fun w m => UTM.set m w.1 w.2.1 w.2.2) ws (UTM.mk' n v0) = .ok m ∧
      (∀ i j, i ≤ j → j < n → m.get i j = .ok (lastWritten v0 i j ws)) ∧
      m.size = n ∧ m.getElements = n * (n + 1) / 2 ∧ m.data.length = m.getElements := by
  obtain ⟨m, h1, h2⟩ := forEach_inv (f := fun w m => UTM.set m w.1 w.2.1 w.2.2)
    (fun pre m => UTM.Rep m n (fun i j => lastWritten v0 i j pre)) ws (UTM.mk' n v0)
    (UTM.Rep.mk' hn v0) (by
      intro pre x post s hl hs
      have hx := hws x (by simp [hl])
      obtain ⟨m', e, r⟩ := hs.set x.2.2 hx.1 hx.2
      refine ⟨m', e, r.congr ?_⟩
      intro i j _ _
      obtain ⟨a, b, v⟩ := x
      rw [lastWritten_append]
      simp only [UTM.upd, @eq_comm _ i, @eq_comm _ j])
  refine ⟨m, h1, fun i j hij hj => h2.get hij hj, h2.size, ?_, ?_⟩
  · unfold UTM.getElements
    rw [h2.size]
    exact (layout n hn).2.1
  · unfold UTM.getElements
    rw [h2.size, h2.len]

example : ∃ m, forEach (fun w m => UTM.set m w.1 w.2.1 w.2.2) [(0, 2, 7), (1, 1, 8), (0, 2, 9)]
    (UTM.mk' 3 0) = .ok m ∧ m.get 0 2 = .ok 9 ∧ m.get 1 1 = .ok 8 ∧ m.get 0 0 = .ok 0 := by
  obtain ⟨m, h1, h2, _⟩ := readsLastWrite 3 (by decide) 0 [(0, 2, 7), (1, 1, 8), (0, 2, 9)] (by decide)
  exact ⟨m, h1, h2 0 2 (by decide) (by decide), h2 1 1 (by decide) (by decide), h2 0 0 (by decide) (by decide)⟩

/-- The reading by position `m[s]`: after any history of writes to valid cells, `m[s]` is defined exactly for the
`n(n+1)/2` positions, and at position `s` it gives what the one cell stored at `s` gives.  `getSize()` is `n`. -/
theorem byPosition {α : Type} (n : Nat) (hn : n ≤ 65535) (v0 : α) (ws : Writes α)
    (hws : ∀ w ∈ ws, w.1 ≤ w.2.1 ∧ w.2.1 < n) :
    ∃ m, forEach (fun w m => UTM.set m w.1 w.2.1 w.2.2) ws (UTM.mk' n v0) = .ok m ∧ m.getSize = n ∧
      (∀ s, (∃ x, m.at' s = .ok x) ↔ s < n * (n + 1) / 2) ∧
      ∀ s < n * (n + 1) / 2, ∃ i j, i ≤ j ∧ j < n ∧ UTM.index n i j = s ∧
        m.at' s = m.get i j ∧ m.at' s = .ok (lastWritten v0 i j ws) := by
  obtain ⟨m, h1, h2, h3, h4, h5⟩ := readsLastWrite n hn v0 ws hws
  rw [h4] at h5
  refine ⟨m, h1, h3, ?_, ?_⟩
  · intro s
    unfold UTM.at' vget
    rw [← h5]
    constructor
    · rintro ⟨x, hx⟩
      by_contra hs
      rw [List.getElem?_eq_none (by omega)] at hx
      exact absurd hx (by simp)
    · intro hs
      rw [List.getElem?_eq_getElem hs]
      exact ⟨_, rfl⟩
  · intro s hs
    obtain ⟨i, j, hij, hj, e⟩ := (layout n hn).1.onto s (by rw [(layout n hn).2.1]; exact hs)
    have hg : m.at' s = m.get i j := by
      unfold UTM.at' UTM.get
      rw [h3, e]
    exact ⟨i, j, hij, hj, e, hg, by rw [hg]; exact h2 i j hij hj⟩

example := byPosition 3 (by decide) 0 [(0, 2, 7), (1, 1, 8), (0, 2, 9)] (by decide)

theorem card_cells (N : Nat) : 2 * ((Finset.range N).sigma (fun j => Finset.range (j + 1))).card = N * (N + 1) := by
  simp only [Finset.card_sigma, Finset.card_range]
  induction N with
  | zero => simp
  | succ N ih => rw [Finset.sum_range_succ]; linarith

/-- For every larger size the 32-bit arithmetic wraps and no layout is left: some cell is stored out of range or
two cells share a slot. -/
theorem wraps (n : Nat) (hn : 65536 ≤ n) : ¬ Layout n (UTM.elements n) (UTM.index n) := by
  intro h
  have he : UTM.elements n < 2147483648 := by
    unfold UTM.elements
    have := ((UInt32.ofNat n + 1) * UInt32.ofNat n).toNat_lt
    simp only [UInt32.toNat_div]
    change _ / 2 < _
    omega
  obtain ⟨N, hN⟩ : ∃ N, N = 65536 := ⟨_, rfl⟩
  let cells : Finset (Σ _ : Nat, Nat) := (Finset.range N).sigma (fun j => Finset.range (j + 1))
  have hc : 2 * cells.card = 65536 * (65536 + 1) := by rw [card_cells N, hN]
  obtain ⟨x, hx, y, hy, hne, hxy⟩ := Finset.exists_ne_map_eq_of_card_lt_of_maps_to
    (s := cells) (t := Finset.range (UTM.elements n)) (by rw [Finset.card_range]; omega)
    (f := fun x => UTM.index n x.2 x.1) (by
      intro x hx
      simp only [cells, Finset.coe_sigma, Set.mem_sigma_iff, Finset.mem_coe, Finset.mem_range] at hx
      simp only [Finset.coe_range, Set.mem_Iio]
      exact h.inRange _ _ (by omega) (by omega))
  simp only [cells, Finset.mem_sigma, Finset.mem_range] at hx hy
  have := h.distinct x.2 x.1 y.2 y.1 (by omega) (by omega) (by omega) (by omega) hxy
  obtain ⟨a, b⟩ := x
  obtain ⟨c, d⟩ := y
  simp only at this
  exact hne (by rw [this.1, this.2])

/-! ## The hypotheses are met by concrete inputs -/

example := layout 5 (by decide)
example := wraps 65536 (Nat.le_refl _)

end Lp.C01
