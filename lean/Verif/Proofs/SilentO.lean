import Verif.Proofs.Silent
import Verif.Proofs.Aggregation

/-!
# Silent slices in the best ordered partition
-/

namespace Lp
open Spec
open scoped BigOperators
variable {m n : Nat} {V : Nat → Nat → ℝ} {a b : ℝ} {L : List (Nat × Nat)}

/-- No series has anything in slice `i`. -/
def Quiet (m : Nat) (V : Nat → Nat → ℝ) (i : Nat) : Prop := ∀ k < m, V k i = 0

/-- The entropy quality of an interval. -/
noncomputable def oEnt (m : Nat) (V : Nat → Nat → ℝ) (I : Nat × Nat) : Quality ℝ := entQ m V (oCells (I.1, I.2))

theorem gainOf_two (q : Nat × Nat → Quality ℝ) (I J : Nat × Nat) : gainOf q [I, J] = (q I).gain + (q J).gain := by simp [gainOf]
theorem lossOf_two (q : Nat × Nat → Quality ℝ) (I J : Nat × Nat) : lossOf q [I, J] = (q I).loss + (q J).loss := by simp [lossOf]
theorem gainOf_one (q : Nat × Nat → Quality ℝ) (I : Nat × Nat) : gainOf q [I] = (q I).gain := by simp [gainOf]
theorem lossOf_one (q : Nat × Nat → Quality ℝ) (I : Nat × Nat) : lossOf q [I] = (q I).loss := by simp [lossOf]

/-- Cutting off silent slices is strictly better. -/
theorem not_lexLe_of_silent {T S : List (Nat × Nat)} {q : Nat × Nat → Quality ℝ} (hb : 0 ≤ b) (hg : gainOf q T = gainOf q S)
    (hl : lossOf q T < lossOf q S) : ¬ LexLe a b q T S := by
  rintro (h | ⟨_, h | ⟨_, h⟩⟩)
  · unfold valueOf at h
    rw [hg] at h
    have := mul_le_mul_of_nonneg_left hl.le hb
    linarith
  · linarith
  · linarith

theorem oEnt_quiet {I : Nat × Nat} (h : ∀ i, I.1 ≤ i → i ≤ I.2 → Quiet m V i) : oEnt m V I = ⟨0, 0⟩ :=
  entQ_zero (fun k hk x hx => by
    simp only [oCells, Finset.mem_Icc] at hx
    exact h x hx.1 hx.2 k hk)

/-- A part with a positive value begins and ends with a slice with a positive value. -/
theorem OTop.edges (h : OTop a b n (oEnt m V) L) (hb : 0 ≤ b) (h0 : ∀ k i, k < m → i < n → 0 ≤ V k i)
    {I : Nat × Nat} (hI : I ∈ L) {k x : Nat} (hk : k < m) (hx1 : I.1 ≤ x) (hx2 : x ≤ I.2) (hp : 0 < V k x) :
    ¬ Quiet m V I.1 ∧ ¬ Quiet m V I.2 := by
  obtain ⟨A, B, rfl, hA, h1, h2, hB⟩ := h.tiles.around hI
  obtain ⟨s, e⟩ := I
  simp only at *
  have hin : ∀ k < m, ∀ x ∈ oCells (s, e), 0 ≤ V k x := fun k hk x hx => by
    simp only [oCells, Finset.mem_Icc] at hx
    exact h0 k x hk (by omega)
  constructor
  · intro hz
    have hne : x ≠ s := by rintro rfl; have := hz k hk; linarith
    refine not_lexLe_of_silent (a := a) hb ?_ ?_ (h.exchange (Tiles.one h1)
      (T := [(s, s), (s + 1, e)]) (.cons le_rfl (by omega) (Tiles.one (by omega))) hA hB).1
    · rw [gainOf_two, gainOf_one, oEnt_quiet (I := (s, s)) (fun i g1 g2 => by
        simp only at g1 g2; obtain rfl : i = s := by omega
        exact hz)]
      show 0 + (entQ m V (oCells (s + 1, e))).gain = (entQ m V (oCells (s, e))).gain
      rw [zero_add]
      refine (entQ_gain_silent (fun i hi => ?_) (fun k hk i hi => ?_)).symm
      · simp only [oCells, Finset.mem_Icc] at hi ⊢; omega
      · simp only [oCells, Finset.mem_Icc, Finset.mem_sdiff] at hi
        obtain rfl : i = s := by omega
        exact hz k hk
    · rw [lossOf_two, lossOf_one, oEnt_quiet (I := (s, s)) (fun i g1 g2 => by
        simp only at g1 g2; obtain rfl : i = s := by omega
        exact hz)]
      show 0 + (entQ m V (oCells (s + 1, e))).loss < (entQ m V (oCells (s, e))).loss
      rw [zero_add]
      refine entQ_loss_silent (Finset.ssubset_iff_of_subset (fun i hi => ?_) |>.mpr ⟨s, ?_, ?_⟩) (fun k hk i hi => ?_)
        (fun k hk i hi => hin k hk i ?_) hk (x := x) ?_ hp
      all_goals simp only [oCells, Finset.mem_Icc, Finset.mem_sdiff] at *
      all_goals try omega
      obtain rfl : i = s := by omega
      exact hz k hk
  · intro hz
    have hne : x ≠ e := by rintro rfl; have := hz k hk; linarith
    have ht : Tiles s (e + 1) [(s, e - 1), (e, e)] := by
      refine .cons (by omega) (by omega) ?_
      rw [show e - 1 + 1 = e by omega]
      exact Tiles.one le_rfl
    refine not_lexLe_of_silent (a := a) hb ?_ ?_ (h.exchange (Tiles.one h1) ht hA hB).1
    · rw [gainOf_two, gainOf_one, oEnt_quiet (I := (e, e)) (fun i g1 g2 => by
        simp only at g1 g2; obtain rfl : i = e := by omega
        exact hz)]
      show (entQ m V (oCells (s, e - 1))).gain + 0 = (entQ m V (oCells (s, e))).gain
      rw [add_zero]
      refine (entQ_gain_silent (fun i hi => ?_) (fun k hk i hi => ?_)).symm
      · simp only [oCells, Finset.mem_Icc] at hi ⊢; omega
      · simp only [oCells, Finset.mem_Icc, Finset.mem_sdiff] at hi
        obtain rfl : i = e := by omega
        exact hz k hk
    · rw [lossOf_two, lossOf_one, oEnt_quiet (I := (e, e)) (fun i g1 g2 => by
        simp only at g1 g2; obtain rfl : i = e := by omega
        exact hz)]
      show (entQ m V (oCells (s, e - 1))).loss + 0 < (entQ m V (oCells (s, e))).loss
      rw [add_zero]
      refine entQ_loss_silent (Finset.ssubset_iff_of_subset (fun i hi => ?_) |>.mpr ⟨e, ?_, ?_⟩) (fun k hk i hi => ?_)
        (fun k hk i hi => hin k hk i ?_) hk (x := x) ?_ hp
      all_goals simp only [oCells, Finset.mem_Icc, Finset.mem_sdiff] at *
      all_goals try omega
      obtain rfl : i = e := by omega
      exact hz k hk

/-- A part that begins or ends with a silent slice is silent. -/
theorem OTop.quiet (h : OTop a b n (oEnt m V) L) (hb : 0 ≤ b) (h0 : ∀ k i, k < m → i < n → 0 ≤ V k i)
    {I : Nat × Nat} (hI : I ∈ L) (hz : Quiet m V I.1 ∨ Quiet m V I.2) {i : Nat} (h1 : I.1 ≤ i) (h2 : i ≤ I.2) : Quiet m V i := by
  intro k hk
  by_contra hne
  have hb' := h.tiles.bounds I hI
  have hp : 0 < V k i := lt_of_le_of_ne (h0 k i hk (by omega)) (Ne.symm hne)
  have := h.edges hb h0 hI hk h1 h2 hp
  tauto

/-- A silent part is a single slice or the last part. -/
theorem OTop.single (h : OTop a b n (oEnt m V) L) {I : Nat × Nat} (hI : I ∈ L) (hz : ∀ i, I.1 ≤ i → i ≤ I.2 → Quiet m V i) :
    I.1 = I.2 ∨ I.2 = n - 1 := by
  by_contra hcon
  push Not at hcon
  obtain ⟨A, B, rfl, hA, h1, h2, hB⟩ := h.tiles.around hI
  obtain ⟨s, e⟩ := I
  simp only at *
  have ht : Tiles s (e + 1) [(s, s), (s + 1, e)] := .cons le_rfl (by omega) (Tiles.one (by omega))
  have q0 := oEnt_quiet (m := m) (V := V) (I := (s, e)) hz
  have q1 := oEnt_quiet (m := m) (V := V) (I := (s, s)) (fun i g1 g2 => hz i g1 (by simp only at g2; omega))
  have q2 := oEnt_quiet (m := m) (V := V) (I := (s + 1, e)) (fun i g1 g2 => hz i (by simp only at g1; omega) g2)
  rcases (h.exchange (Tiles.one h1) ht hA hB).2 (by rw [gainOf_two, gainOf_one, q0, q1, q2]; simp)
    (by rw [lossOf_two, lossOf_one, q0, q1, q2]; simp) with h | h
  · simp at h
  · unfold oCode at h
    simp only [List.map_cons, List.map_nil, List.cons_append, List.nil_append] at h
    rw [if_neg (by omega), if_neg (by omega)] at h
    rcases before_cons h with h | ⟨h, _⟩ <;> omega

/-- Before a silent last part there is no silent slice. -/
theorem OTop.beforeLast (h : OTop a b n (oEnt m V) L) (hb : 0 ≤ b) (h0 : ∀ k i, k < m → i < n → 0 ≤ V k i)
    {I : Nat × Nat} (hI : I ∈ L) (hz : Quiet m V I.2) (hl : I.2 = n - 1) (hpos : 0 < I.1) : ¬ Quiet m V (I.1 - 1) := by
  intro hq
  have hIq : ∀ i, I.1 ≤ i → i ≤ I.2 → Quiet m V i := fun i => h.quiet hb h0 hI (.inr hz)
  obtain ⟨A, B, rfl, hA, h1, h2, hB⟩ := h.tiles.around hI
  have : B = [] := by
    cases hB with
    | nil => rfl
    | cons g1 g2 _ => omega
  subst this
  obtain ⟨A', J, rfl, k1, k2, k3⟩ := hA.last hpos
  have hJq : ∀ i, J.1 ≤ i → i ≤ J.2 → Quiet m V i := fun i =>
    h.quiet hb h0 (by simp) (.inr (by rw [show J.2 = I.1 - 1 by omega]; exact hq))
  obtain ⟨s, e⟩ := I
  obtain ⟨t, c⟩ := J
  simp only at *
  have e1 : A' ++ [(t, c)] ++ ([(s, e)] ++ []) = A' ++ ([(t, c), (s, e)] ++ []) := by simp
  rw [e1] at h
  have hS : Tiles t (e + 1) [(t, c), (s, e)] := by
    refine .cons k2 (by omega) ?_
    rw [k3]
    exact Tiles.one h1
  have q0 := oEnt_quiet (m := m) (V := V) (I := (t, c)) hJq
  have q1 := oEnt_quiet (m := m) (V := V) (I := (s, e)) hIq
  have q2 := oEnt_quiet (m := m) (V := V) (I := (t, e)) (fun i g1 g2 => by
    simp only at g1 g2
    by_cases hi : i ≤ c
    · exact hJq i g1 hi
    · exact hIq i (by omega) g2)
  rcases (h.exchange hS (T := [(t, e)]) (Tiles.one (by omega)) k1 hB).2 (by rw [gainOf_two, gainOf_one, q0, q1, q2]; simp)
    (by rw [lossOf_two, lossOf_one, q0, q1, q2]; simp) with h | h
  · simp at h
  · unfold oCode at h
    simp only [List.map_cons, List.map_nil, List.append_nil] at h
    have hc : ¬ c = n - 1 := by omega
    simp only [if_neg hc, if_pos hl] at h
    rcases before_cons h with h | ⟨h, _⟩ <;> omega

end Lp
