import Verif.Spec.Float
import Mathlib.Data.Nat.Log
import Mathlib.Algebra.Order.Floor.Ring
import Mathlib.Data.Rat.Floor
import Mathlib.Tactic.Ring
import Mathlib.Tactic.NormNum
import Mathlib.Tactic.FieldSimp
import Mathlib.Tactic.Positivity

/-!
# Specification: `float` is IEEE binary32

The finite binary32 numbers are the numbers `m * 2^e / 2^149` with `|m| ≤ 2^24` (24-bit significands, subnormals
included; the largest exponent plays no role for parameters in `[0,1]` and is not bounded).  A rounding is any
monotone map onto them that leaves them fixed: all IEEE rounding modes are.  With every such rounding the
parameter arithmetic satisfies `FloatLaws` with `u = 2^-23`.
-/

namespace Lp

/-- Finite binary32 numbers. -/
def IsB32 (x : ℚ) : Prop := ∃ (m : ℤ) (e : ℕ), |m| ≤ 2 ^ 24 ∧ x * 2 ^ 149 = m * 2 ^ e

/-- A rounding to binary32. -/
structure Rounding where
  rnd : ℚ → ℚ
  b32 : ∀ x, IsB32 (rnd x)
  mono : ∀ x y, x ≤ y → rnd x ≤ rnd y
  fix : ∀ x, IsB32 x → rnd x = x

/-- The type of binary32 numbers, tagged with the rounding its operations use. -/
def B32 (_ : Rounding) : Type := {x : ℚ // IsB32 x}

theorem isB32_zero : IsB32 0 := ⟨0, 0, by norm_num, by norm_num⟩
theorem isB32_one : IsB32 1 := ⟨1, 149, by norm_num, by norm_num⟩

/-- The float operations: the exact result, rounded. -/
instance b32P (R : Rounding) : FloatP (B32 R) ℚ where
  toK a := a.1
  zero := ⟨0, isB32_zero⟩
  oneSub p := ⟨R.rnd (1 - p.1), R.b32 _⟩
  sub a b := ⟨R.rnd (a.1 - b.1), R.b32 _⟩
  add a b := ⟨R.rnd (a.1 + b.1), R.b32 _⟩
  half a := ⟨R.rnd (a.1 / 2), R.b32 _⟩
  lt a b := decide (a.1 < b.1)

/-- Multiples of `2^-24` in `[0,1]` are binary32 numbers. -/
theorem isB32_grid24 {k : ℤ} (h0 : 0 ≤ k) (h1 : k ≤ 2 ^ 24) : IsB32 ((k : ℚ) / 2 ^ 24) := by
  refine ⟨k, 125, by rw [abs_of_nonneg h0]; exact h1, ?_⟩
  field_simp

/-- Multiples of `2^-23` in `[0,2]` are binary32 numbers. -/
theorem isB32_grid23 {k : ℤ} (h0 : 0 ≤ k) (h1 : k ≤ 2 ^ 24) : IsB32 ((k : ℚ) / 2 ^ 23) := by
  refine ⟨k, 126, by rw [abs_of_nonneg h0]; exact h1, ?_⟩
  field_simp

/-- Powers of two that are multiples of `2^-149`. -/
theorem isB32_pow (e : ℕ) : IsB32 ((2 : ℚ) ^ e / 2 ^ 149) :=
  ⟨1, e, by norm_num, by field_simp; simp⟩

theorem isB32_int {x : ℚ} (h : IsB32 x) : ∃ z : ℤ, x * 2 ^ 149 = z := by
  obtain ⟨m, e, _, h⟩ := h
  exact ⟨m * 2 ^ e, by rw [h]; push_cast; ring⟩

/-- Binary32 numbers from `1/2` on are multiples of `2^-24`. -/
theorem isB32_grid {x : ℚ} (h : IsB32 x) (hx : 1 / 2 ≤ x) : ∃ k : ℤ, x = k / 2 ^ 24 := by
  obtain ⟨m, e, hm, he⟩ := h
  have hx' : (2 : ℚ) ^ 148 ≤ m * 2 ^ e := by
    rw [← he]
    have : (2 : ℚ) ^ 148 = 1 / 2 * 2 ^ 149 := by norm_num
    rw [this]
    exact mul_le_mul_of_nonneg_right hx (by positivity)
  have hz : (2 : ℤ) ^ 148 ≤ m * 2 ^ e := by exact_mod_cast hx'
  have hm2 : m ≤ 2 ^ 24 := (abs_le.mp hm).2
  by_cases h125 : 125 ≤ e
  · refine ⟨m * 2 ^ (e - 125), ?_⟩
    have e1 : (2 : ℚ) ^ e = 2 ^ (e - 125) * 2 ^ 125 := by rw [← pow_add]; congr 1; omega
    rw [e1] at he
    have e2 : (2 : ℚ) ^ 149 = 2 ^ 24 * 2 ^ 125 := by norm_num
    rw [e2] at he
    have h3 : (x * 2 ^ 24) * 2 ^ 125 = (m * 2 ^ (e - 125)) * 2 ^ 125 := by linarith
    have h4 := mul_right_cancel₀ (by positivity) h3
    push_cast
    field_simp
    linarith
  · -- the only possibility is `2^24 * 2^124`
    have he124 : e = 124 := by
      by_contra hne
      have : e ≤ 123 := by omega
      have h1 : m * 2 ^ e ≤ 2 ^ 24 * 2 ^ 123 := by
        calc m * 2 ^ e ≤ 2 ^ 24 * 2 ^ e := mul_le_mul_of_nonneg_right hm2 (by positivity)
          _ ≤ 2 ^ 24 * 2 ^ 123 := mul_le_mul_of_nonneg_left (pow_le_pow_right₀ (by norm_num) this) (by positivity)
      have : (2 : ℤ) ^ 148 ≤ 2 ^ 24 * 2 ^ 123 := le_trans hz h1
      norm_num at this
    subst he124
    have h2 : (2 : ℤ) ^ 24 ≤ m := by
      have : (2 : ℤ) ^ 148 = 2 ^ 24 * 2 ^ 124 := by norm_num
      rw [this] at hz
      exact le_of_mul_le_mul_right hz (by positivity)
    have hm3 : m = 2 ^ 24 := le_antisymm hm2 h2
    refine ⟨2 ^ 23, ?_⟩
    subst hm3
    have h5 : x * 2 ^ 149 = (1 / 2) * 2 ^ 149 := by rw [he]; norm_num
    have h6 := mul_right_cancel₀ (by positivity) h5
    rw [h6]; norm_num

variable (R : Rounding)

theorem rnd_err24 {x : ℚ} (h0 : 0 ≤ x) (h1 : x ≤ 1) : |R.rnd x - x| ≤ 1 / 2 ^ 24 := by
  have hfl := Int.floor_le (x * 2 ^ 24)
  have hlt := Int.lt_floor_add_one (x * 2 ^ 24)
  set k := ⌊x * 2 ^ 24⌋ with hk
  have hk0 : 0 ≤ k := Int.floor_nonneg.mpr (by positivity)
  have lo : (k : ℚ) / 2 ^ 24 ≤ x := by rw [div_le_iff₀ (by positivity)]; exact hfl
  have hi : x ≤ ((k + 1 : ℤ) : ℚ) / 2 ^ 24 := by
    rw [le_div_iff₀ (by positivity)]; push_cast; exact hlt.le
  have hk1 : k ≤ 2 ^ 24 := by
    have : (k : ℚ) ≤ 2 ^ 24 := by
      refine le_trans hfl ?_
      have := mul_le_mul_of_nonneg_right h1 (show (0 : ℚ) ≤ 2 ^ 24 by positivity)
      linarith
    exact_mod_cast this
  rcases lt_or_eq_of_le hk1 with hk2 | hk2
  · have a := R.mono _ _ lo
    have b := R.mono _ _ hi
    rw [R.fix _ (isB32_grid24 hk0 hk1)] at a
    rw [R.fix _ (isB32_grid24 (by omega) (by omega))] at b
    push_cast at b hi
    rw [abs_le]
    have e : ((k : ℚ) + 1) / 2 ^ 24 = k / 2 ^ 24 + 1 / 2 ^ 24 := by ring
    rw [e] at b hi
    constructor <;> linarith
  · have : x = 1 := by
      apply le_antisymm h1
      rw [hk2] at lo
      norm_num at lo
      exact lo
    rw [this, R.fix 1 isB32_one]
    norm_num

theorem rnd_err23 {x : ℚ} (h0 : 0 ≤ x) (h1 : x ≤ 2) : |R.rnd x - x| ≤ 1 / 2 ^ 23 := by
  have hfl := Int.floor_le (x * 2 ^ 23)
  have hlt := Int.lt_floor_add_one (x * 2 ^ 23)
  set k := ⌊x * 2 ^ 23⌋ with hk
  have hk0 : 0 ≤ k := Int.floor_nonneg.mpr (by positivity)
  have lo : (k : ℚ) / 2 ^ 23 ≤ x := by rw [div_le_iff₀ (by positivity)]; exact hfl
  have hi : x ≤ ((k + 1 : ℤ) : ℚ) / 2 ^ 23 := by
    rw [le_div_iff₀ (by positivity)]; push_cast; exact hlt.le
  have hk1 : k ≤ 2 ^ 24 := by
    have : (k : ℚ) ≤ 2 ^ 24 := by
      refine le_trans hfl ?_
      have := mul_le_mul_of_nonneg_right h1 (show (0 : ℚ) ≤ 2 ^ 23 by positivity)
      linarith
    exact_mod_cast this
  rcases lt_or_eq_of_le hk1 with hk2 | hk2
  · have a := R.mono _ _ lo
    have b := R.mono _ _ hi
    rw [R.fix _ (isB32_grid23 hk0 hk1)] at a
    rw [R.fix _ (isB32_grid23 (by omega) (by omega))] at b
    push_cast at b hi
    rw [abs_le]
    have e : ((k : ℚ) + 1) / 2 ^ 23 = k / 2 ^ 23 + 1 / 2 ^ 23 := by ring
    rw [e] at b hi
    constructor <;> linarith
  · have : x = 2 := by
      apply le_antisymm h1
      rw [hk2] at lo
      norm_num at lo
      exact lo
    have h2 : IsB32 2 := ⟨2, 149, by norm_num, by norm_num⟩
    rw [this, R.fix 2 h2]
    norm_num

theorem rnd_nonneg {x : ℚ} (h : 0 ≤ x) : 0 ≤ R.rnd x := by
  have := R.mono _ _ h
  rwa [R.fix 0 isB32_zero] at this

theorem rnd_le_one {x : ℚ} (h : x ≤ 1) : R.rnd x ≤ 1 := by
  have := R.mono _ _ h
  rwa [R.fix 1 isB32_one] at this

/-- Half of a rounded difference is at most the difference. -/
theorem rnd_half_le {d : ℚ} (h : 0 ≤ d) (hz : ∃ z : ℤ, d * 2 ^ 149 = z) : R.rnd (R.rnd d / 2) ≤ d := by
  obtain ⟨z, hz⟩ := hz
  rcases eq_or_lt_of_le h with rfl | hpos
  · rw [R.fix 0 isB32_zero]; simp [R.fix 0 isB32_zero]
  · have hz0 : 0 < z := by
      have : (0 : ℚ) < z := by rw [← hz]; positivity
      exact_mod_cast this
    obtain ⟨D, rfl⟩ : ∃ D : ℕ, z = D := ⟨z.toNat, by omega⟩
    have hD : D ≠ 0 := by omega
    have l1 := Nat.pow_log_le_self 2 hD
    have l2 := Nat.lt_pow_succ_log_self (b := 2) (by norm_num) D
    set e := Nat.log 2 D
    have hd : d = (D : ℚ) / 2 ^ 149 := by
      rw [eq_div_iff (by positivity), hz]; simp
    have g1 : (2 : ℚ) ^ e / 2 ^ 149 ≤ d := by
      rw [hd]
      apply div_le_div_of_nonneg_right _ (by positivity)
      exact_mod_cast l1
    have g2 : d ≤ (2 : ℚ) ^ (e + 1) / 2 ^ 149 := by
      rw [hd]
      apply div_le_div_of_nonneg_right _ (by positivity)
      exact_mod_cast l2.le
    have r1 := R.mono _ _ g2
    rw [R.fix _ (isB32_pow _)] at r1
    have r2 : R.rnd d / 2 ≤ (2 : ℚ) ^ e / 2 ^ 149 := by
      have : (2 : ℚ) ^ (e + 1) / 2 ^ 149 = 2 * (2 ^ e / 2 ^ 149) := by rw [pow_succ]; ring
      rw [this] at r1
      linarith
    have r3 := R.mono _ _ r2
    rw [R.fix _ (isB32_pow _)] at r3
    exact le_trans r3 g1

theorem b32_diff {a b : ℚ} (ha : IsB32 a) (hb : IsB32 b) : ∃ z : ℤ, (b - a) * 2 ^ 149 = z := by
  obtain ⟨x, hx⟩ := isB32_int ha
  obtain ⟨y, hy⟩ := isB32_int hb
  exact ⟨y - x, by rw [sub_mul, hx, hy]; push_cast; ring⟩

/-- Binary32 arithmetic satisfies the laws, whatever the rounding mode. -/
theorem b32Laws : FloatLaws (B32 R) ℚ (1 / 2 ^ 23) where
  lt_iff a b := by change decide (a.1 < b.1) = true ↔ a.1 < b.1; simp
  inj a b h := Subtype.ext h
  zero := rfl
  oneSub_anti a b h := R.mono _ _ (by change a.1 ≤ b.1 at h; linarith)
  oneSub_pos a h := by
    change 0 < R.rnd (1 - a.1)
    change a.1 < 1 at h
    have hle : 1 / 2 ^ 24 ≤ 1 - a.1 := by
      by_cases hh : 1 / 2 ≤ a.1
      · obtain ⟨k, hk⟩ := isB32_grid a.2 hh
        rw [hk] at h ⊢
        rw [div_lt_one (by positivity)] at h
        have hk2 : k < 2 ^ 24 := by exact_mod_cast h
        have hk3 : (k : ℚ) ≤ 2 ^ 24 - 1 := by
          have : k ≤ 2 ^ 24 - 1 := by omega
          exact_mod_cast this
        have : (1 : ℚ) / 2 ^ 24 ≤ (2 ^ 24 - k) / 2 ^ 24 := div_le_div_of_nonneg_right (by linarith) (by positivity)
        have e : (1 : ℚ) - k / 2 ^ 24 = (2 ^ 24 - k) / 2 ^ 24 := by field_simp
        rw [e]; exact this
      · push Not at hh
        have : (1 : ℚ) / 2 ^ 24 ≤ 1 / 2 := by norm_num
        linarith
    have h2 := R.mono _ _ hle
    have h3 : IsB32 (1 / 2 ^ 24) := by
      have := isB32_grid24 (k := 1) (by norm_num) (by norm_num)
      simpa using this
    rw [R.fix _ h3] at h2
    have : (0 : ℚ) < 1 / 2 ^ 24 := by positivity
    linarith
  oneSub_zero a h := by
    change R.rnd (1 - a.1) = 1
    change a.1 = 0 at h
    rw [h, sub_zero]; exact R.fix 1 isB32_one
  oneSub_one a h := by
    change R.rnd (1 - a.1) = 0
    change a.1 = 1 at h
    rw [h, sub_self]; exact R.fix 0 isB32_zero
  err_nonneg := by positivity
  sub_err a b h0 h1 h2 := by
    change |R.rnd (b.1 - a.1) - (b.1 - a.1)| ≤ _
    change 0 ≤ a.1 at h0
    change a.1 ≤ b.1 at h1
    change b.1 ≤ 1 at h2
    refine le_trans (rnd_err24 R (by linarith) (by linarith)) (by norm_num)
  half_err a h0 h1 := by
    change |R.rnd (a.1 / 2) - a.1 / 2| ≤ _
    change 0 ≤ a.1 at h0
    change a.1 ≤ 1 at h1
    refine le_trans (rnd_err24 R (by linarith) (by linarith)) (by norm_num)
  add_err a b h0 h1 h2 h3 h4 := by
    change |R.rnd (a.1 + b.1) - (a.1 + b.1)| ≤ _
    change 0 ≤ a.1 at h0
    change 0 ≤ b.1 at h2
    change a.1 + b.1 ≤ 2 at h4
    exact rnd_err23 R (by linarith) h4
  sub_nonneg a b h0 h1 h2 := by
    change 0 ≤ R.rnd (b.1 - a.1) ∧ R.rnd (b.1 - a.1) ≤ 1
    change 0 ≤ a.1 at h0
    change a.1 ≤ b.1 at h1
    change b.1 ≤ 1 at h2
    exact ⟨rnd_nonneg R (by linarith), rnd_le_one R (by linarith)⟩
  half_nonneg a h0 h1 := by
    change 0 ≤ R.rnd (a.1 / 2) ∧ R.rnd (a.1 / 2) ≤ 1
    change 0 ≤ a.1 at h0
    change a.1 ≤ 1 at h1
    exact ⟨rnd_nonneg R (by linarith), rnd_le_one R (by linarith)⟩
  sub_mono a b a' b' h := R.mono _ _ h
  mid a b h0 h1 h2 := by
    change a.1 ≤ R.rnd (a.1 + R.rnd (R.rnd (b.1 - a.1) / 2)) ∧ R.rnd (a.1 + R.rnd (R.rnd (b.1 - a.1) / 2)) ≤ b.1
    change 0 ≤ a.1 at h0
    change a.1 ≤ b.1 at h1
    change b.1 ≤ 1 at h2
    have hd : 0 ≤ b.1 - a.1 := by linarith
    have hh := rnd_half_le R hd (b32_diff a.2 b.2)
    have hn : 0 ≤ R.rnd (R.rnd (b.1 - a.1) / 2) := rnd_nonneg R (by have := rnd_nonneg R hd; linarith)
    constructor
    · have := R.mono a.1 (a.1 + R.rnd (R.rnd (b.1 - a.1) / 2)) (by linarith)
      rwa [R.fix _ a.2] at this
    · have := R.mono (a.1 + R.rnd (R.rnd (b.1 - a.1) / 2)) b.1 (by linarith)
      rwa [R.fix _ b.2] at this

/-- The difference of two different binary32 numbers is not rounded to 0. -/
theorem b32_sub_pos {a b : B32 R} (h : a.1 < b.1) : 0 < R.rnd (b.1 - a.1) := by
  obtain ⟨z, hz⟩ := b32_diff a.2 b.2
  have hd : 0 < b.1 - a.1 := by linarith
  have hz1 : (1 : ℤ) ≤ z := by
    have : (0 : ℚ) < z := by rw [← hz]; positivity
    have : 0 < z := by exact_mod_cast this
    omega
  have hz2 : (1 : ℚ) ≤ z := by exact_mod_cast hz1
  have hle : (2 : ℚ) ^ 0 / 2 ^ 149 ≤ b.1 - a.1 := by
    rw [div_le_iff₀ (by positivity), hz]; simpa using hz2
  have := R.mono _ _ hle
  rw [R.fix _ (isB32_pow 0)] at this
  have h2 : (0 : ℚ) < 2 ^ 0 / 2 ^ 149 := by positivity
  linarith

/-- In `[1/2,1]` different binary32 numbers are at least `2^-24` apart, also after rounding. -/
theorem b32_sub_gap {a b : B32 R} (h0 : 1 / 2 ≤ a.1) (h : a.1 < b.1) : 1 / 2 ^ 24 ≤ R.rnd (b.1 - a.1) := by
  obtain ⟨k, hk⟩ := isB32_grid a.2 h0
  obtain ⟨l, hl⟩ := isB32_grid b.2 (by linarith)
  have hkl : k < l := by
    rw [hk, hl] at h
    have := (div_lt_div_iff_of_pos_right (show (0 : ℚ) < 2 ^ 24 by positivity)).mp h
    exact_mod_cast this
  have hq : (k : ℚ) + 1 ≤ l := by exact_mod_cast hkl
  have hle : 1 / 2 ^ 24 ≤ b.1 - a.1 := by
    rw [hk, hl, ← sub_div]
    exact div_le_div_of_nonneg_right (by linarith) (by positivity)
  have := R.mono _ _ hle
  have h3 : IsB32 (1 / 2 ^ 24) := by
    have := isB32_grid24 (k := 1) (by norm_num) (by norm_num)
    simpa using this
  rwa [R.fix _ h3] at this

/-! ## There is such a rounding: truncation (round toward zero) -/

/-- Keep the 24 leading bits. -/
def truncN (D : ℕ) : ℕ := D / 2 ^ (Nat.log 2 D - 23) * 2 ^ (Nat.log 2 D - 23)

theorem truncN_le (D : ℕ) : truncN D ≤ D := Nat.div_mul_le_self _ _

theorem pow_le_truncN {D : ℕ} (h : D ≠ 0) : 2 ^ Nat.log 2 D ≤ truncN D := by
  have l1 := Nat.pow_log_le_self 2 h
  unfold truncN
  set s := Nat.log 2 D - 23 with hs
  have hsl : s ≤ Nat.log 2 D := by omega
  have e : 2 ^ Nat.log 2 D = 2 ^ (Nat.log 2 D - s) * 2 ^ s := by rw [← pow_add]; congr 1; omega
  rw [e]
  apply Nat.mul_le_mul_right
  rw [Nat.le_div_iff_mul_le (by positivity), ← e]
  exact l1

theorem truncN_mono {D E : ℕ} (h : D ≤ E) : truncN D ≤ truncN E := by
  rcases Nat.eq_zero_or_pos D with rfl | hD
  · simp [truncN]
  · rcases eq_or_lt_of_le (Nat.log_mono_right (b := 2) h) with he | he
    · unfold truncN
      rw [he]
      exact Nat.mul_le_mul_right _ (Nat.div_le_div_right h)
    · have h1 := truncN_le D
      have h2 := Nat.lt_pow_succ_log_self (b := 2) (by norm_num) D
      have h3 : 2 ^ (Nat.log 2 D + 1) ≤ 2 ^ Nat.log 2 E := Nat.pow_le_pow_right (by norm_num) he
      have h4 := pow_le_truncN (D := E) (by omega)
      omega

theorem truncN_fix {m e : ℕ} (h : m ≤ 2 ^ 24) : truncN (m * 2 ^ e) = m * 2 ^ e := by
  rcases Nat.eq_zero_or_pos m with rfl | hm
  · simp [truncN]
  · unfold truncN
    have hlog : Nat.log 2 (m * 2 ^ e) = Nat.log 2 m + e := by
      clear h
      induction e with
      | zero => simp
      | succ e ih =>
        have : m * 2 ^ (e + 1) = m * 2 ^ e * 2 := by rw [pow_succ]; ring
        rw [this, Nat.log_mul_base (by norm_num) (by positivity), ih]; rfl
    apply Nat.div_mul_cancel
    rw [hlog]
    rcases eq_or_lt_of_le h with rfl | hlt
    · rw [Nat.log_pow (by norm_num), ← pow_add]
      exact pow_dvd_pow 2 (by omega)
    · have : Nat.log 2 m < 24 := Nat.log_lt_of_lt_pow (by omega) hlt
      exact Dvd.dvd.mul_left (pow_dvd_pow 2 (by omega)) m

theorem truncN_b32 (D : ℕ) : IsB32 ((truncN D : ℚ) / 2 ^ 149) := by
  refine ⟨(D / 2 ^ (Nat.log 2 D - 23) : ℕ), Nat.log 2 D - 23, ?_, ?_⟩
  · have h2 := Nat.lt_pow_succ_log_self (b := 2) (by norm_num) D
    rw [abs_of_nonneg (by positivity)]
    have : D / 2 ^ (Nat.log 2 D - 23) < 2 ^ 24 := by
      rw [Nat.div_lt_iff_lt_mul (by positivity), ← pow_add]
      exact lt_of_lt_of_le h2 (Nat.pow_le_pow_right (by norm_num) (by omega))
    exact_mod_cast this.le
  · field_simp
    unfold truncN
    rw [Nat.cast_mul, Int.cast_natCast, Nat.cast_pow]; rfl

theorem isB32_neg {x : ℚ} (h : IsB32 x) : IsB32 (-x) := by
  obtain ⟨m, e, hm, he⟩ := h
  exact ⟨-m, e, by rwa [abs_neg], by rw [neg_mul, he]; push_cast; ring⟩

/-- Truncation of a non-negative number. -/
noncomputable def rz0 (x : ℚ) : ℚ := (truncN ⌊x * 2 ^ 149⌋₊ : ℚ) / 2 ^ 149

theorem rz0_mono {x y : ℚ} (h : x ≤ y) : rz0 x ≤ rz0 y := by
  unfold rz0
  apply div_le_div_of_nonneg_right _ (by positivity)
  have := truncN_mono (Nat.floor_mono (mul_le_mul_of_nonneg_right h (show (0 : ℚ) ≤ 2 ^ 149 by positivity)))
  exact_mod_cast this

theorem rz0_nonneg (x : ℚ) : 0 ≤ rz0 x := by unfold rz0; positivity

theorem rz0_fix {x : ℚ} (h0 : 0 ≤ x) (h : IsB32 x) : rz0 x = x := by
  obtain ⟨m, e, hm, he⟩ := h
  have hm0 : 0 ≤ m := by
    have : (0 : ℚ) ≤ m * 2 ^ e := by rw [← he]; positivity
    have : (0 : ℚ) ≤ m := nonneg_of_mul_nonneg_left this (by positivity)
    exact_mod_cast this
  obtain ⟨k, rfl⟩ : ∃ k : ℕ, m = k := ⟨m.toNat, by omega⟩
  have hk : k ≤ 2 ^ 24 := by rw [abs_of_nonneg hm0] at hm; exact_mod_cast hm
  have he2 : x * 2 ^ 149 = ((k * 2 ^ e : ℕ) : ℚ) := by rw [he]; push_cast; ring
  unfold rz0
  rw [he2, Nat.floor_natCast, truncN_fix hk, ← he2]
  field_simp

/-- Round toward zero. -/
noncomputable def roundToZero : Rounding where
  rnd x := if 0 ≤ x then rz0 x else -(rz0 (-x))
  b32 x := by
    split
    · exact truncN_b32 _
    · exact isB32_neg (truncN_b32 _)
  mono x y h := by
    by_cases hx : 0 ≤ x
    · rw [if_pos hx, if_pos (le_trans hx h)]; exact rz0_mono h
    · rw [if_neg hx]
      by_cases hy : 0 ≤ y
      · rw [if_pos hy]; have := rz0_nonneg (-x); have := rz0_nonneg y; linarith
      · rw [if_neg hy]; have := rz0_mono (show -y ≤ -x by linarith); linarith
  fix x h := by
    split
    · rename_i h0; exact rz0_fix h0 h
    · rename_i h0; rw [rz0_fix (by linarith) (isB32_neg h)]; ring

end Lp
