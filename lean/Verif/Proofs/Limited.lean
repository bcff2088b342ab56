import Verif.Spec.Limited
import Verif.Proofs.Range
import Mathlib.Analysis.SpecialFunctions.Log.Deriv

/-!
# The laws hold for the x87 arithmetic with a bounded range
-/

namespace Lp
open Spec

theorem limited_laws {K : Type} [LDLog K] {val : K → ℝ} (hlt : ∀ a b : K, a < b ↔ val a < val b) (h0 : val 0 = 0) (E Q : Nat)
    (lost : K → Special K) :
    RangeLaws (K' := Limited K val E Q lost) (K := K) Limited.fin Limited.num val E Q where
  zero := ⟨⟨0, rfl⟩, rfl⟩
  add := by
    rintro _ _ ⟨a, rfl⟩ ⟨b, rfl⟩ h
    have e : Limited.add val E lost (.num a) (.num b) = .num (a + b) := by
      unfold Limited.add Limited.keep
      exact if_pos h
    exact ⟨⟨_, e⟩, congrArg (Limited.num (val := val) (E := E) (Q := Q) (lost := lost)) e⟩
  sub := by
    rintro _ _ ⟨a, rfl⟩ ⟨b, rfl⟩ h
    have e : Limited.sub val E lost (.num a) (.num b) = .num (a - b) := by
      unfold Limited.sub Limited.keep
      exact if_pos h
    exact ⟨⟨_, e⟩, congrArg (Limited.num (val := val) (E := E) (Q := Q) (lost := lost)) e⟩
  mul := by
    rintro _ _ ⟨a, rfl⟩ ⟨b, rfl⟩ h
    have e : Limited.mul val E lost (.num a) (.num b) = .num (a * b) := by
      unfold Limited.mul Limited.keep
      exact if_pos h
    exact ⟨⟨_, e⟩, congrArg (Limited.num (val := val) (E := E) (Q := Q) (lost := lost)) e⟩
  div := by
    rintro _ _ ⟨a, rfl⟩ ⟨b, rfl⟩ hb h
    have hb' : b < 0 ∨ 0 < b := by
      rw [hlt, hlt, h0]
      exact lt_or_gt_of_ne hb
    have e : Limited.div val E lost (.num a) (.num b) = .num (a / b) := by
      unfold Limited.div Limited.keep
      show (if b < 0 ∨ 0 < b then _ else _) = _
      rw [if_pos hb']
      exact if_pos h
    exact ⟨⟨_, e⟩, congrArg (Limited.num (val := val) (E := E) (Q := Q) (lost := lost)) e⟩
  log := by
    rintro _ ⟨a, rfl⟩ hp h
    have hp : 0 < val a := hp
    have h1 : ¬ a < 0 := by rw [hlt, h0]; exact hp.le.not_gt
    have h2 : 0 < a := by rw [hlt, h0]; exact hp
    have e : Limited.log val Q lost (.num a) = .num (LDLog.log a) := by
      refine (if_neg (fun hh => hh.2 h)).trans ?_
      unfold Special.log
      show (if _ then _ else if _ then _ else _) = _
      rw [if_neg h1, if_pos h2]
    exact ⟨⟨_, e⟩, congrArg (Limited.num (val := val) (E := E) (Q := Q) (lost := lost)) e⟩
  logInt z _ := ⟨⟨_, rfl⟩, rfl⟩
  ln := ⟨⟨_, rfl⟩, rfl⟩
  lt := by
    rintro _ _ ⟨a, rfl⟩ ⟨b, rfl⟩
    show decide (a < b) = true ↔ a < b
    simp
  eq := by
    rintro _ _ ⟨a, rfl⟩ ⟨b, rfl⟩
    rfl

/-! ## Truncated numbers and the multiples of a power of two -/

theorem Grid.neg {a : Nat} {x : ℝ} (h : Grid a x) : Grid a (-x) := by
  obtain ⟨z, rfl⟩ := h
  exact ⟨-z, by push_cast; ring⟩

theorem grid_zpow {a : Nat} {k : ℤ} (h : -(a : ℤ) ≤ k) (z : ℤ) : Grid a (z * (2 : ℝ) ^ k) := by
  obtain ⟨j, hj⟩ := Int.eq_ofNat_of_zero_le (show 0 ≤ k + a by omega)
  refine ⟨z * 2 ^ j, ?_⟩
  have : k = (j : ℤ) - (a : ℤ) := by omega
  rw [this, zpow_sub₀ (by norm_num), zpow_natCast, zpow_natCast]
  push_cast
  ring

theorem truncPos_grid {a : Nat} (b : Nat) {x : ℝ} (hx : 0 < x) (h : Grid a x) : Grid a (truncPos b x) := by
  by_cases hk : -(a : ℤ) ≤ Int.log 2 x - b
  · exact grid_zpow hk _
  · obtain ⟨j, hj⟩ := Int.eq_ofNat_of_zero_le (show 0 ≤ -(a : ℤ) - (Int.log 2 x - b) by omega)
    obtain ⟨z, hz⟩ := h
    have e : x / ulp b x = ((z * 2 ^ j : ℤ) : ℝ) := by
      have : Int.log 2 x - b = -(a : ℤ) - (j : ℤ) := by omega
      unfold ulp
      rw [this, zpow_sub₀ (by norm_num), zpow_neg, zpow_natCast, zpow_natCast]
      conv_lhs => rw [hz]
      push_cast
      field_simp
    have e2 : truncPos b x = x := by
      unfold truncPos
      rw [e, Int.floor_intCast, ← e, div_mul_cancel₀ _ (ulp_pos b x).ne']
    rw [e2]
    exact ⟨z, hz⟩

theorem truncBits_grid {a : Nat} (b : Nat) {x : ℝ} (h : Grid a x) : Grid a (truncBits b x) := by
  unfold truncBits
  split
  · next hx => exact truncPos_grid b hx h
  · split
    · next hx => exact (truncPos_grid b (by linarith) h.neg).neg
    · exact Grid.zero a

theorem truncPos_bits {b e : Nat} {x : ℝ} (hx : 0 < x) (he : 1 / 2 ^ e ≤ x) : Grid (e + b) (truncPos b x) := by
  refine grid_zpow ?_ _
  have : (-(e : ℤ)) ≤ Int.log 2 x := by
    rw [← Int.zpow_le_iff_le_log (by norm_num) hx, zpow_neg, zpow_natCast]
    push_cast
    rw [← one_div]
    exact he
  push_cast
  omega

theorem truncBits_bits {b e : Nat} {x : ℝ} (h : truncBits b x = x) (he : 1 / 2 ^ e ≤ |x|) : Grid (e + b) x := by
  have h2 : (0 : ℝ) < 1 / 2 ^ e := by positivity
  rw [← h]
  unfold truncBits
  split
  · next hx => rw [abs_of_pos hx] at he; exact truncPos_bits hx he
  · split
    · next hx => rw [abs_of_neg hx] at he; exact (truncPos_bits (by linarith) he).neg
    · exact Grid.zero _

/-- The logarithm of a number with `d + 1` significant bits is 0 or at least `2^-(d+1)` in magnitude. -/
theorem log_low {d : Nat} {x : ℝ} (hx : 0 < x) (h : truncBits d x = x) (hl : Real.log x ≠ 0) : 1 / 2 ^ (d + 1) ≤ |Real.log x| := by
  have h1 : x ≠ 1 := by rintro rfl; simp at hl
  have e2 : (0 : ℝ) < 1 / 2 ^ (d + 1) := by positivity
  rcases lt_or_gt_of_ne h1 with hlt | hgt
  · have hlog := Real.log_le_sub_one_of_pos hx
    rw [abs_of_nonpos (by linarith)]
    by_cases h2 : x < 1 / 2
    · have : (1 : ℝ) / 2 ^ (d + 1) ≤ 1 / 2 ^ 1 := pow_inv_le (by omega)
      norm_num at this ⊢
      linarith
    · have g := truncBits_bits (e := 1) h (by rw [abs_of_pos hx]; norm_num at h2 ⊢; linarith)
      have g2 : Grid (1 + d) (1 - x) := by
        obtain ⟨z, hz⟩ := g
        refine ⟨2 ^ (1 + d) - z, ?_⟩
        rw [hz]
        push_cast
        field_simp
      have := g2.low (by linarith)
      rw [abs_of_pos (by linarith), add_comm 1 d] at this
      linarith
  · have hlog := Real.one_sub_inv_le_log_of_pos hx
    have g := truncBits_bits (e := 0) h (by rw [abs_of_pos hx]; norm_num; linarith)
    have g2 : Grid (0 + d) (x - 1) := by
      obtain ⟨z, hz⟩ := g
      refine ⟨z - 2 ^ (0 + d), ?_⟩
      rw [hz]
      push_cast
      field_simp
    have h3 := g2.low (by linarith)
    rw [abs_of_pos (by linarith), zero_add] at h3
    have e3 : (0 : ℝ) < 1 / 2 ^ d := by positivity
    have e4 : (1 : ℝ) / 2 ^ d ≤ 1 := by
      have := pow_inv_le (show 0 ≤ d by omega)
      simpa using this
    have e5 : (1 : ℝ) / 2 ^ (d + 1) = 1 / 2 ^ d / 2 := by rw [pow_succ]; field_simp
    have h4 : 1 / 2 ^ (d + 1) ≤ 1 - x⁻¹ := by
      rw [e5]
      have hx' : x * x⁻¹ = 1 := mul_inv_cancel₀ hx.ne'
      have hi : 0 < x⁻¹ := inv_pos.mpr hx
      set y := x⁻¹
      set t : ℝ := 1 / 2 ^ d
      have h5 : (1 + t) * y ≤ 1 := by nlinarith
      nlinarith
    rw [abs_of_pos (by linarith)]
    linarith

theorem twice_low {R D : RoundTo ℝ} (hR : R.u ≤ 1 / 2) (hD : D.u ≤ 1 / 2) {e : Nat} {y : ℝ} (h : y ≠ 0 → 1 / 2 ^ e ≤ |y|)
    (hn : R.rnd (D.rnd y) ≠ 0) : 1 / 2 ^ (e + 2) ≤ |R.rnd (D.rnd y)| := by
  have hy : y ≠ 0 := by
    rintro rfl
    rw [D.zero, R.zero] at hn
    exact hn rfl
  have h1 := err_lower hD (D.err y)
  have h2 := err_lower hR (R.err (D.rnd y))
  have h3 := h hy
  have e4 : (1 : ℝ) / 2 ^ (e + 2) = 1 / 2 ^ e / 2 / 2 := by rw [pow_add]; field_simp
  rw [e4]
  linarith

theorem fine_laws (b d : Nat) (hb : 1 ≤ b) (hd : 1 ≤ d) :
    FineLaws (K := RoundedLog (truncationIn ℝ b) (truncationIn ℝ d)) RoundedLog.val b (d + 3) where
  bits x e h := truncBits_bits (show truncBits b x.val = x.val from Subtype.property (show Rounded (truncationIn ℝ b) from x)) h
  add x y a hx hy := by
    refine truncBits_grid b ?_
    obtain ⟨z, hz⟩ := hx
    obtain ⟨t, ht⟩ := hy
    refine ⟨z + t, ?_⟩
    rw [show (Subtype.val (show Rounded (truncationIn ℝ b) from x)) = x.val from rfl,
      show (Subtype.val (show Rounded (truncationIn ℝ b) from y)) = y.val from rfl, hz, ht]
    push_cast
    ring
  sub x y a hx hy := by
    refine truncBits_grid b ?_
    obtain ⟨z, hz⟩ := hx
    obtain ⟨t, ht⟩ := hy
    refine ⟨z - t, ?_⟩
    rw [show (Subtype.val (show Rounded (truncationIn ℝ b) from x)) = x.val from rfl,
      show (Subtype.val (show Rounded (truncationIn ℝ b) from y)) = y.val from rfl, hz, ht]
    push_cast
    ring
  log x hx hn := by
    have hu : ∀ k : Nat, 1 ≤ k → (truncationIn ℝ k).u ≤ 1 / 2 := fun k hk => by
      have := pow_inv_le hk
      simpa [truncationIn] using this
    refine twice_low (hu b hb) (hu d hd) (e := d + 1) (fun hy => ?_) hn
    have hp : 0 < (truncationIn ℝ d).rnd x.val := by
      show 0 < truncBits d x.val
      unfold truncBits
      rw [if_pos hx]
      exact truncPos_pos d hx
    exact log_low hp ((truncationIn ℝ d).idem _) hy
  logInt z hz hn := by
    have hu : ∀ k : Nat, 1 ≤ k → (truncationIn ℝ k).u ≤ 1 / 2 := fun k hk => by
      have := pow_inv_le hk
      simpa [truncationIn] using this
    refine twice_low (hu b hb) (hu d hd) (e := d + 1) (fun hy => ?_) hn
    have hz1 : z ≠ 1 := by rintro rfl; simp at hy
    have hz2 : (2 : ℝ) ≤ z := by exact_mod_cast (by omega : 2 ≤ z)
    have h1 := Real.one_sub_inv_le_log_of_pos (show (0 : ℝ) < z by linarith)
    have h2 : (z : ℝ)⁻¹ ≤ 2⁻¹ := inv_anti₀ (by norm_num) hz2
    have h3 : (1 : ℝ) / 2 ^ (d + 1) ≤ 1 / 2 ^ 1 := pow_inv_le (by omega)
    norm_num at h2 h3
    rw [abs_of_nonneg (by linarith)]
    norm_num
    linarith

end Lp
