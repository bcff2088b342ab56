import Verif.Proofs.Ent
import Verif.Proofs.Weights
import Verif.Spec.Float
import Mathlib.Analysis.SpecialFunctions.Log.Base

/-!
# The ordered values 1, 2, 5

The best partition is `[0,1] [2,2]` for `p = 1/8` and `[0,0] [1,2]` for `p = 1/5`.
-/

namespace Lp
open Spec
open scoped BigOperators

theorem logb_lt {x : ℝ} {a b : Nat} (hx : 0 < x) (hb : 0 < b) (h : x ^ b < 2 ^ a) : Real.logb 2 x < a / b := by
  have hb' : (0 : ℝ) < b := by exact_mod_cast hb
  have h2 : (0 : ℝ) < Real.log 2 := Real.log_pos (by norm_num)
  have := Real.log_lt_log (pow_pos hx b) h
  rw [Real.log_pow, Real.log_pow] at this
  unfold Real.logb
  rw [div_lt_div_iff₀ h2 hb']
  linarith

theorem lt_logb {x : ℝ} {a b : Nat} (hx : 0 < x) (hb : 0 < b) (h : 2 ^ a < x ^ b) : (a / b : ℝ) < Real.logb 2 x := by
  have hb' : (0 : ℝ) < b := by exact_mod_cast hb
  have h2 : (0 : ℝ) < Real.log 2 := Real.log_pos (by norm_num)
  have := Real.log_lt_log (by positivity) h
  rw [Real.log_pow, Real.log_pow] at this
  unfold Real.logb
  rw [div_lt_div_iff₀ hb' h2]
  linarith

/-- The values. -/
noncomputable def v125 (i : Nat) : ℝ := ([1, 2, 5] : List ℝ).getD i 0

theorem logb_one : Real.logb 2 1 = 0 := Real.logb_one
theorem logb_two : Real.logb 2 2 = 1 := Real.logb_self_eq_one (by norm_num)
theorem logb_eight : Real.logb 2 8 = 3 := by
  rw [show (8 : ℝ) = 2 ^ 3 by norm_num, Real.logb_pow, logb_two]; norm_num

theorem q125_single {i : Nat} : entQ 1 (fun _ => v125) (oCells (i, i)) = ⟨0, 0⟩ := by
  simp [entQ, gainSeries, lossSeries, lossOver, gainOver, oCells]

theorem q125_01 : entQ 1 (fun _ => v125) (oCells (0, 1)) = ⟨3 * Real.logb 2 3 - 2, 5 - 3 * Real.logb 2 3⟩ := by
  have : oCells (0, 1) = {0, 1} := by decide
  simp only [entQ, gainSeries, lossSeries, lossOver, gainOver, this, Finset.sum_range_one]
  rw [Finset.sum_pair (by norm_num), Finset.sum_pair (by norm_num), Finset.card_pair (by norm_num)]
  norm_num [v125, xlog2, logb_one, logb_two]
  ring

theorem q125_12 : entQ 1 (fun _ => v125) (oCells (1, 2)) =
    ⟨7 * Real.logb 2 7 - 2 - 5 * Real.logb 2 5, 9 - 7 * Real.logb 2 7 + 5 * Real.logb 2 5⟩ := by
  have : oCells (1, 2) = {1, 2} := by decide
  simp only [entQ, gainSeries, lossSeries, lossOver, gainOver, this, Finset.sum_range_one]
  rw [Finset.sum_pair (by norm_num), Finset.sum_pair (by norm_num), Finset.card_pair (by norm_num)]
  norm_num [v125, xlog2, logb_one, logb_two]
  constructor <;> ring

theorem q125_02 : entQ 1 (fun _ => v125) (oCells (0, 2)) =
    ⟨22 - 5 * Real.logb 2 5, 8 * Real.logb 2 3 - 22 + 5 * Real.logb 2 5⟩ := by
  have : oCells (0, 2) = {0, 1, 2} := by decide
  simp only [entQ, gainSeries, lossSeries, lossOver, gainOver, this, Finset.sum_range_one]
  rw [show ∀ f : Nat → ℝ, ∑ x ∈ ({0, 1, 2} : Finset Nat), f x = f 0 + f 1 + f 2 by
    intro f; rw [Finset.sum_insert (by decide), Finset.sum_pair (by decide)]; ring]
  rw [show ∀ f : Nat → ℝ, ∑ x ∈ ({0, 1, 2} : Finset Nat), f x = f 0 + f 1 + f 2 by
    intro f; rw [Finset.sum_insert (by decide), Finset.sum_pair (by decide)]; ring]
  rw [show ({0, 1, 2} : Finset Nat).card = 3 by decide]
  norm_num [v125, xlog2, logb_one, logb_two, logb_eight]
  constructor <;> ring

theorem tiles3 {L : List (Nat × Nat)} (h : Tiles 0 3 L) :
    L = [(0, 0), (1, 1), (2, 2)] ∨ L = [(0, 1), (2, 2)] ∨ L = [(0, 0), (1, 2)] ∨ L = [(0, 2)] := by
  have one : ∀ {L}, Tiles 2 3 L → L = [(2, 2)] := by
    intro L h
    generalize ha : 2 = a at h
    generalize hb : 3 = b at h
    cases h with
    | nil => omega
    | @cons _ _ c L h1 h2 h3 =>
      obtain rfl : c = 2 := by omega
      subst ha hb
      cases h3 with
      | nil => rfl
      | cons => omega
  have two : ∀ {L}, Tiles 1 3 L → L = [(1, 1), (2, 2)] ∨ L = [(1, 2)] := by
    intro L h
    generalize ha : 1 = a at h
    generalize hb : 3 = b at h
    cases h with
    | nil => omega
    | @cons _ _ c L h1 h2 h3 =>
      subst ha hb
      have : c = 1 ∨ c = 2 := by omega
      rcases this with rfl | rfl
      · rw [one h3]; exact .inl rfl
      · cases h3 with
        | nil => exact .inr rfl
        | cons => omega
  generalize ha : 0 = a at h
  generalize hb : 3 = b at h
  cases h with
  | nil => omega
  | @cons _ _ c L h1 h2 h3 =>
    subst ha hb
    have : c = 0 ∨ c = 1 ∨ c = 2 := by omega
    rcases this with rfl | rfl | rfl
    · rcases two h3 with rfl | rfl
      · exact .inl rfl
      · exact .inr (.inr (.inl rfl))
    · rw [one h3]; exact .inr (.inl rfl)
    · cases h3 with
      | nil => exact .inr (.inr (.inr rfl))
      | cons => omega

/-- The quality of an interval. -/
noncomputable def Q125 (I : Nat × Nat) : Quality ℝ := entQ 1 (fun _ => v125) (oCells (I.1, I.2))

theorem log_bounds : (79 / 50 : ℝ) < Real.logb 2 3 ∧ Real.logb 2 3 < 159 / 100 ∧ (58 / 25 : ℝ) < Real.logb 2 5 ∧ Real.logb 2 5 < 93 / 40 ∧
    (14 / 5 : ℝ) < Real.logb 2 7 ∧ Real.logb 2 7 < 73 / 26 := by
  refine ⟨?_, ?_, ?_, ?_, ?_, ?_⟩
  · exact_mod_cast lt_logb (a := 79) (b := 50) (x := 3) (by norm_num) (by norm_num) (by norm_num)
  · exact_mod_cast logb_lt (a := 159) (b := 100) (x := 3) (by norm_num) (by norm_num) (by norm_num)
  · exact_mod_cast lt_logb (a := 58) (b := 25) (x := 5) (by norm_num) (by norm_num) (by norm_num)
  · exact_mod_cast logb_lt (a := 93) (b := 40) (x := 5) (by norm_num) (by norm_num) (by norm_num)
  · exact_mod_cast lt_logb (a := 14) (b := 5) (x := 7) (by norm_num) (by norm_num) (by norm_num)
  · exact_mod_cast logb_lt (a := 73) (b := 26) (x := 7) (by norm_num) (by norm_num) (by norm_num)

theorem values125 (a b : ℝ) :
    valueOf a b Q125 [(0, 0), (1, 1), (2, 2)] = 0 ∧
    valueOf a b Q125 [(0, 1), (2, 2)] = a * (3 * Real.logb 2 3 - 2) - b * (5 - 3 * Real.logb 2 3) ∧
    valueOf a b Q125 [(0, 0), (1, 2)] =
      a * (7 * Real.logb 2 7 - 2 - 5 * Real.logb 2 5) - b * (9 - 7 * Real.logb 2 7 + 5 * Real.logb 2 5) ∧
    valueOf a b Q125 [(0, 2)] = a * (22 - 5 * Real.logb 2 5) - b * (8 * Real.logb 2 3 - 22 + 5 * Real.logb 2 5) := by
  refine ⟨?_, ?_, ?_, ?_⟩ <;>
    simp only [valueOf, gainOf, lossOf, Q125, List.map_cons, List.map_nil, List.sum_cons, List.sum_nil, q125_single, q125_01, q125_12,
      q125_02] <;> ring

/-- The best tilings. -/
theorem best125 {L : List (Nat × Nat)} (hL : Tiles 0 3 L) :
    ((∀ L', Tiles 0 3 L' → valueOf (1 / 8) (7 / 8) Q125 L' ≤ valueOf (1 / 8) (7 / 8) Q125 L) → L = [(0, 1), (2, 2)]) ∧
    ((∀ L', Tiles 0 3 L' → valueOf (1 / 5) (4 / 5) Q125 L' ≤ valueOf (1 / 5) (4 / 5) Q125 L) → L = [(0, 0), (1, 2)]) := by
  obtain ⟨a1, a2, b1, b2, c1, c2⟩ := log_bounds
  have t1 : Tiles 0 3 [(0, 1), (2, 2)] := .cons (by omega) (by omega) (.cons (by omega) (by omega) (.nil _))
  have t2 : Tiles 0 3 [(0, 0), (1, 2)] := .cons (by omega) (by omega) (.cons (by omega) (by omega) (.nil _))
  constructor
  · intro h
    have h := h _ t1
    obtain ⟨v0, v1, v2, v3⟩ := values125 (1 / 8) (7 / 8)
    rcases tiles3 hL with rfl | rfl | rfl | rfl
    · rw [v0, v1] at h; exfalso; linarith
    · rfl
    · rw [v2, v1] at h; exfalso; linarith
    · rw [v3, v1] at h; exfalso; linarith
  · intro h
    have h := h _ t2
    obtain ⟨v0, v1, v2, v3⟩ := values125 (1 / 5) (4 / 5)
    rcases tiles3 hL with rfl | rfl | rfl | rfl
    · rw [v0, v2] at h; exfalso; linarith
    · rw [v1, v2] at h; exfalso; linarith
    · rfl
    · rw [v3, v2] at h; exfalso; linarith

end Lp
