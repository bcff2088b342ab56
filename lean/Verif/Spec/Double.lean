import Verif.Spec.BinaryReal
import Verif.Spec.Sheet
import Verif.Model.RNumbers

/-!
# Specification: R's numbers

`RNumLaws c val u`: the numbers of type `D` (R's `double`, without NaN, infinities and `-0`) stand for real numbers (`val`); a `float` is a
`double` and a `double` is a `long double` with the same value; the conversion of a `long double` to `double` is monotone, exact at 0, 1/2 and 1,
and has an error of at most `u` in the unit interval; the conversion to `float` is exact if the number is a `float`; subtracting 1 and converting
to `int` is exact for integers of 32 bits.
`IsB64` are the finite IEEE binary64 numbers (53-bit significands, subnormals included, the largest exponent not bounded); a rounding to them is
any monotone map of the real numbers onto them that leaves them fixed.  With every such rounding the laws hold with `u = 2^-53`.
-/

namespace Lp

/-- See the header. -/
structure RNumLaws {D F : Type} [LinearOrder D] [FloatP F ℝ] (c : RNum D F ℝ) (val : D → ℝ) (u : ℝ) : Prop where
  nonneg : 0 ≤ u
  le_iff : ∀ a b : D, a ≤ b ↔ val a ≤ val b
  wide : ∀ d, c.wide d = val d
  ofFloat : ∀ p : F, val (c.ofFloat p) = FloatP.toK p
  toFloat : ∀ (d : D) (p : F), val d = FloatP.toK p → c.toFloat d = p
  mono : ∀ x y, x ≤ y → val (c.narrow x) ≤ val (c.narrow y)
  zero : val (c.narrow 0) = 0
  half : val (c.narrow (1 / 2)) = 1 / 2
  one : val (c.narrow 1) = 1
  err : ∀ x, 0 ≤ x → x ≤ 1 → |val (c.narrow x) - x| ≤ u
  int : ∀ (d : D) (n : Int), val d = n → |n| ≤ 2 ^ 31 → c.toInt (c.pred d) = n - 1

/-- Binary floating-point numbers with `b`-bit significands and least positive number `2^-s`. -/
def IsBin (b s : Nat) (x : ℚ) : Prop := ∃ (m : ℤ) (e : ℕ), |m| ≤ 2 ^ b ∧ x * 2 ^ s = m * 2 ^ e

/-- Finite binary64 numbers. -/
def IsB64 (x : ℚ) : Prop := IsBin 53 1074 x

/-- A rounding of the real numbers to binary64. -/
structure Rounding64 where
  rnd : ℝ → ℚ
  b64 : ∀ x, IsB64 (rnd x)
  mono : ∀ x y, x ≤ y → rnd x ≤ rnd y
  fix : ∀ x : ℚ, IsB64 x → rnd x = x

/-- The type of the binary64 numbers. -/
abbrev B64 : Type := {x : ℚ // IsB64 x}

/-- Towards zero. -/
def chop (x : ℚ) : Int := if 0 ≤ x then ⌊x⌋ else ⌈x⌉

/-- The conversions with binary64 for `double`, binary32 for `float` and the real numbers for `long double`. -/
def conversions (S : Rounding64) (R : Rounding) (hR : ∀ x : B32 R, IsB64 x.1) : RNum B64 (OverReal (B32 R)) ℝ where
  wide d := d.1
  narrow x := ⟨S.rnd x, S.b64 x⟩
  ofFloat p := ⟨p.1, hR p⟩
  toFloat d := ⟨R.rnd d.1, R.b32 _⟩
  pred d := ⟨S.rnd (d.1 - 1), S.b64 _⟩
  toInt d := chop d.1

theorem isBin_frac {b s k : Nat} {m : ℤ} (hk : k ≤ s) (h : |m| ≤ 2 ^ b) : IsBin b s ((m : ℚ) / 2 ^ k) := by
  refine ⟨m, s - k, h, ?_⟩
  have e : (2 : ℚ) ^ s = 2 ^ (s - k) * 2 ^ k := by rw [← pow_add]; congr 1; omega
  rw [e]
  field_simp

theorem isBin_int {b s : Nat} {m : ℤ} (h : |m| ≤ 2 ^ b) : IsBin b s (m : ℚ) := by
  have := isBin_frac (b := b) (s := s) (Nat.zero_le _) h
  rwa [pow_zero, div_one] at this

theorem b32_b64 {x : ℚ} (h : IsB32 x) : IsB64 x := by
  obtain ⟨m, e, hm, he⟩ := h
  refine ⟨m, e + 925, hm.trans (by norm_num), ?_⟩
  have e1 : (2 : ℚ) ^ 1074 = 2 ^ 149 * 2 ^ 925 := by rw [← pow_add]
  rw [e1, ← mul_assoc, he, pow_add, mul_assoc]

theorem isB64_zero : IsB64 0 := by
  have h : IsBin 53 1074 ((0 : ℤ) : ℚ) := isBin_int (by norm_num)
  rwa [Int.cast_zero] at h

theorem isB64_one : IsB64 1 := by
  have h : IsBin 53 1074 ((1 : ℤ) : ℚ) := isBin_int (by norm_num)
  rwa [Int.cast_one] at h

theorem isB64_half : IsB64 (1 / 2) := by
  have h : IsBin 53 1074 (((1 : ℤ) : ℚ) / 2 ^ 1) := isBin_frac (by norm_num) (by norm_num)
  rwa [Int.cast_one, pow_one] at h

theorem conversionLaws (S : Rounding64) (R : Rounding) :
    RNumLaws (conversions S R (fun x => b32_b64 x.2)) (fun d => ((d.1 : ℚ) : ℝ)) (1 / 2 ^ 53) where
  nonneg := by positivity
  le_iff a b := by rw [Rat.cast_le]; exact Iff.rfl
  wide _ := rfl
  ofFloat _ := rfl
  toFloat d p h := by
    have h : ((d.1 : ℚ) : ℝ) = ((p.1 : ℚ) : ℝ) := h
    have h : d.1 = p.1 := by exact_mod_cast h
    apply Subtype.ext
    show R.rnd d.1 = p.1
    rw [h]
    exact R.fix _ p.2
  mono x y h := by
    have := S.mono x y h
    show ((S.rnd x : ℚ) : ℝ) ≤ ((S.rnd y : ℚ) : ℝ)
    exact_mod_cast this
  zero := by
    show ((S.rnd 0 : ℚ) : ℝ) = 0
    have := S.fix 0 isB64_zero
    rw [Rat.cast_zero] at this
    rw [this, Rat.cast_zero]
  half := by
    show ((S.rnd (1 / 2) : ℚ) : ℝ) = 1 / 2
    have := S.fix _ isB64_half
    rw [show (((1 / 2 : ℚ)) : ℝ) = 1 / 2 by norm_num] at this
    rw [this]
    norm_num
  one := by
    show ((S.rnd 1 : ℚ) : ℝ) = 1
    have := S.fix 1 isB64_one
    rw [Rat.cast_one] at this
    rw [this, Rat.cast_one]
  err x h0 h1 := by
    show |((S.rnd x : ℚ) : ℝ) - x| ≤ _
    have hp : (0 : ℝ) < 2 ^ 53 := by positivity
    obtain ⟨k, hk⟩ : ∃ k : ℤ, k = ⌊x * 2 ^ 53⌋ := ⟨_, rfl⟩
    have hk0 : 0 ≤ k := by rw [hk]; exact Int.floor_nonneg.mpr (by positivity)
    have a1 : (k : ℝ) ≤ x * 2 ^ 53 := by rw [hk]; exact Int.floor_le _
    have a2 : x * 2 ^ 53 < k + 1 := by rw [hk]; exact Int.lt_floor_add_one _
    have hk1 : k ≤ 2 ^ 53 := by
      have : (k : ℝ) ≤ 2 ^ 53 := a1.trans (by nlinarith)
      exact_mod_cast this
    have low : ((k : ℝ) / 2 ^ 53) ≤ ((S.rnd x : ℚ) : ℝ) := by
      have hb : IsB64 ((k : ℚ) / 2 ^ 53) := isBin_frac (by norm_num) (by rw [abs_of_nonneg hk0]; exact hk1)
      have := S.mono (((k : ℚ) / 2 ^ 53 : ℚ) : ℝ) x (by push_cast; rw [div_le_iff₀ hp]; exact a1)
      rw [S.fix _ hb] at this
      have h : (((k : ℚ) / 2 ^ 53 : ℚ) : ℝ) ≤ ((S.rnd x : ℚ) : ℝ) := by exact_mod_cast this
      push_cast at h
      exact h
    have b1 : x < ((k : ℝ) + 1) / 2 ^ 53 := by rw [lt_div_iff₀ hp]; exact a2
    have b2 : (k : ℝ) / 2 ^ 53 ≤ x := by rw [div_le_iff₀ hp]; exact a1
    have e1 : ((k : ℝ) + 1) / 2 ^ 53 = (k : ℝ) / 2 ^ 53 + 1 / 2 ^ 53 := by ring
    have up : ((S.rnd x : ℚ) : ℝ) ≤ ((k : ℝ) + 1) / 2 ^ 53 := by
      by_cases hkk : k = 2 ^ 53
      · have hx1 : x ≤ 1 := h1
        have f := S.fix 1 isB64_one
        have := S.mono x 1 h1
        rw [Rat.cast_one] at f
        rw [f] at this
        have h : ((S.rnd x : ℚ) : ℝ) ≤ 1 := by exact_mod_cast this
        refine h.trans ?_
        rw [le_div_iff₀ hp, hkk]
        push_cast
        linarith
      · have hb : IsB64 (((k + 1 : ℤ) : ℚ) / 2 ^ 53) := isBin_frac (by norm_num) (by rw [abs_of_nonneg (by omega)]; omega)
        have := S.mono x ((((k + 1 : ℤ) : ℚ) / 2 ^ 53 : ℚ) : ℝ) (by push_cast; exact b1.le)
        rw [S.fix _ hb] at this
        have h : ((S.rnd x : ℚ) : ℝ) ≤ ((((k + 1 : ℤ) : ℚ) / 2 ^ 53 : ℚ) : ℝ) := by exact_mod_cast this
        push_cast at h
        exact h
    rw [abs_le]
    constructor <;> linarith
  int d n h hn := by
    show chop (S.rnd (((d.1 : ℚ) : ℝ) - 1)) = n - 1
    have h : ((d.1 : ℚ) : ℝ) = n := h
    have hb : IsB64 (((n - 1 : ℤ)) : ℚ) := isBin_int (by
      have := abs_le.mp hn
      rw [abs_le]
      constructor <;> omega)
    have := S.fix _ hb
    rw [Rat.cast_intCast] at this
    rw [h, show (n : ℝ) - 1 = ((n - 1 : ℤ) : ℝ) by push_cast; ring, this]
    unfold chop
    split
    · exact Int.floor_intCast _
    · exact Int.ceil_intCast _

/-! ## There is such a rounding: towards zero -/

/-- Keep the `b` leading bits. -/
def cut (b D : ℕ) : ℕ := D / 2 ^ (Nat.log 2 D - (b - 1)) * 2 ^ (Nat.log 2 D - (b - 1))

theorem cut_le (b D : ℕ) : cut b D ≤ D := Nat.div_mul_le_self _ _

theorem pow_le_cut {b D : ℕ} (h : D ≠ 0) : 2 ^ Nat.log 2 D ≤ cut b D := by
  have l1 := Nat.pow_log_le_self 2 h
  unfold cut
  set s := Nat.log 2 D - (b - 1) with hs
  have hsl : s ≤ Nat.log 2 D := by omega
  have e : 2 ^ Nat.log 2 D = 2 ^ (Nat.log 2 D - s) * 2 ^ s := by rw [← pow_add]; congr 1; omega
  rw [e]
  apply Nat.mul_le_mul_right
  rw [Nat.le_div_iff_mul_le (by positivity), ← e]
  exact l1

theorem cut_mono {b D E : ℕ} (h : D ≤ E) : cut b D ≤ cut b E := by
  rcases Nat.eq_zero_or_pos D with rfl | hD
  · simp [cut]
  · rcases eq_or_lt_of_le (Nat.log_mono_right (b := 2) h) with he | he
    · unfold cut
      rw [he]
      exact Nat.mul_le_mul_right _ (Nat.div_le_div_right h)
    · have h1 := cut_le b D
      have h2 := Nat.lt_pow_succ_log_self (b := 2) (by norm_num) D
      have h3 : 2 ^ (Nat.log 2 D + 1) ≤ 2 ^ Nat.log 2 E := Nat.pow_le_pow_right (by norm_num) he
      have h4 := pow_le_cut (b := b) (D := E) (by omega)
      omega

theorem cut_fix {b m e : ℕ} (hb : 0 < b) (h : m ≤ 2 ^ b) : cut b (m * 2 ^ e) = m * 2 ^ e := by
  rcases Nat.eq_zero_or_pos m with rfl | hm
  · simp [cut]
  · unfold cut
    have hlog : Nat.log 2 (m * 2 ^ e) = Nat.log 2 m + e := by
      clear h
      induction e with
      | zero => simp
      | succ e ih =>
        have : m * 2 ^ (e + 1) = m * 2 ^ e * 2 := by rw [pow_succ]; ring
        rw [this, Nat.log_mul_base (by norm_num) (by positivity), ih]; rfl
    apply Nat.div_mul_cancel
    rw [hlog]
    rcases eq_or_lt_of_le h with rfl | hlt
    · rw [Nat.log_pow (by norm_num), ← pow_add]
      exact pow_dvd_pow 2 (by omega)
    · have : Nat.log 2 m < b := Nat.log_lt_of_lt_pow (by omega) hlt
      exact Dvd.dvd.mul_left (pow_dvd_pow 2 (by omega)) m

theorem cut_bin {b s : ℕ} (hb : 0 < b) (D : ℕ) : IsBin b s ((cut b D : ℚ) / 2 ^ s) := by
  refine ⟨(D / 2 ^ (Nat.log 2 D - (b - 1)) : ℕ), Nat.log 2 D - (b - 1), ?_, ?_⟩
  · have h2 := Nat.lt_pow_succ_log_self (b := 2) (by norm_num) D
    rw [abs_of_nonneg (by positivity)]
    have : D / 2 ^ (Nat.log 2 D - (b - 1)) < 2 ^ b := by
      rw [Nat.div_lt_iff_lt_mul (by positivity), ← pow_add]
      exact lt_of_lt_of_le h2 (Nat.pow_le_pow_right (by norm_num) (by omega))
    exact_mod_cast this.le
  · rw [div_mul_cancel₀ _ (by positivity)]
    unfold cut
    rw [Nat.cast_mul, Int.cast_natCast, Nat.cast_pow]; rfl

theorem isBin_neg {b s : ℕ} {x : ℚ} (h : IsBin b s x) : IsBin b s (-x) := by
  obtain ⟨m, e, hm, he⟩ := h
  exact ⟨-m, e, by rwa [abs_neg], by rw [neg_mul, he]; push_cast; ring⟩

/-- Truncation of a non-negative number. -/
noncomputable def cutReal (b s : Nat) (x : ℝ) : ℚ := (cut b ⌊x * 2 ^ s⌋₊ : ℚ) / 2 ^ s

theorem cutReal_mono {b s : Nat} {x y : ℝ} (h : x ≤ y) : cutReal b s x ≤ cutReal b s y := by
  unfold cutReal
  apply div_le_div_of_nonneg_right _ (by positivity)
  have := cut_mono (b := b) (Nat.floor_mono (mul_le_mul_of_nonneg_right h (show (0 : ℝ) ≤ 2 ^ s by positivity)))
  exact_mod_cast this

theorem cutReal_nonneg (b s : Nat) (x : ℝ) : 0 ≤ cutReal b s x := by unfold cutReal; positivity

theorem cutReal_fix {b s : Nat} (hb : 0 < b) {x : ℚ} (h0 : 0 ≤ x) (h : IsBin b s x) : cutReal b s x = x := by
  obtain ⟨m, e, hm, he⟩ := h
  have hm0 : 0 ≤ m := by
    have : (0 : ℚ) ≤ m * 2 ^ e := by rw [← he]; positivity
    have : (0 : ℚ) ≤ m := nonneg_of_mul_nonneg_left this (by positivity)
    exact_mod_cast this
  obtain ⟨k, rfl⟩ : ∃ k : ℕ, m = k := ⟨m.toNat, by omega⟩
  have hk : k ≤ 2 ^ b := by rw [abs_of_nonneg hm0] at hm; exact_mod_cast hm
  have he2 : x * 2 ^ s = ((k * 2 ^ e : ℕ) : ℚ) := by rw [he]; push_cast; ring
  have he3 : (x : ℝ) * 2 ^ s = ((k * 2 ^ e : ℕ) : ℝ) := by exact_mod_cast he2
  unfold cutReal
  rw [he3, Nat.floor_natCast, cut_fix hb hk, ← he2]
  field_simp

/-- Round towards zero. -/
noncomputable def towardsZero64 : Rounding64 where
  rnd x := if 0 ≤ x then cutReal 53 1074 x else -(cutReal 53 1074 (-x))
  b64 x := by
    split
    · exact cut_bin (by norm_num) _
    · exact isBin_neg (cut_bin (by norm_num) _)
  mono x y h := by
    by_cases hx : 0 ≤ x
    · rw [if_pos hx, if_pos (le_trans hx h)]; exact cutReal_mono h
    · rw [if_neg hx]
      by_cases hy : 0 ≤ y
      · rw [if_pos hy]; have := cutReal_nonneg 53 1074 (-x); have := cutReal_nonneg 53 1074 y; linarith
      · rw [if_neg hy]; have := cutReal_mono (b := 53) (s := 1074) (show -y ≤ -x by linarith); linarith
  fix x h := by
    split
    · rename_i h0
      exact cutReal_fix (by norm_num) (by exact_mod_cast h0) h
    · rename_i h0
      have h0 : x < 0 := by push Not at h0; exact_mod_cast h0
      have := cutReal_fix (b := 53) (s := 1074) (by norm_num) (x := -x) (by linarith) (isBin_neg h)
      rw [Rat.cast_neg] at this
      rw [this, neg_neg]

namespace Spec
variable {D F A R : Type} [FloatP F ℝ]

/-- The result `r` that R gets is right within rounding.  `param`, `gainCol` and `lossCol` are the columns `Parameter`, `Gain` and `Loss` of
`Partitions`; `row p a` is the row that describes part `a` at parameter `p`. -/
structure DoubleSheet (F : Type) [FloatP F ℝ] (val : D → ℝ) (u : ℝ) (param gainCol lossCol : R → D) (part rival : List A → Prop)
    (quality : A → Quality ℝ) (row : D → A → R) (r : RResult D D R) : Prop where
  /-- `Qualities` starts with parameter 0, and its parameters increase strictly, are at most 1 and are `float`s. -/
  first : ∃ p, (r.qualities.map QRow.parameter).head? = some p ∧ val p = 0
  sorted : (r.qualities.map QRow.parameter).Pairwise (fun x y => val x < val y)
  range : ∀ e ∈ r.qualities, 0 ≤ val e.parameter ∧ val e.parameter ≤ 1 ∧ ∃ p : F, val e.parameter = FloatP.toK p
  /-- `Partitions` is made of the rows of these parameters, in the order of `Qualities`. -/
  grouped : r.partitions = r.qualities.flatMap (fun e => rowsAt param e.parameter r.partitions)
  /-- The rows of a parameter describe a partition; the gain and the loss in `Qualities` are those of the partition and the sums of the columns
  `Gain` and `Loss` of its rows, up to rounding, and in the unit interval; no rival is better by more than the rounding of the two
  columns. -/
  rows : ∀ e ∈ r.qualities, ∃ L, part L ∧ rowsAt param e.parameter r.partitions = L.map (row e.parameter) ∧
    |val e.gain - gainOf quality L| ≤ u ∧ |val e.loss - lossOf quality L| ≤ u ∧
    |val e.gain - ((rowsAt param e.parameter r.partitions).map (fun x => val (gainCol x))).sum| ≤ (L.length + 1) * u ∧
    |val e.loss - ((rowsAt param e.parameter r.partitions).map (fun x => val (lossCol x))).sum| ≤ (L.length + 1) * u ∧
    0 ≤ val e.gain ∧ val e.gain ≤ 1 ∧ 0 ≤ val e.loss ∧ val e.loss ≤ 1 ∧
    ∀ L', rival L' → ∀ p : F, val e.parameter = FloatP.toK p →
      FloatP.toK p * gainOf quality L' - FloatP.toK (FloatP.oneSub p) * lossOf quality L' ≤
      FloatP.toK p * val e.gain - FloatP.toK (FloatP.oneSub p) * val e.loss + 2 * u
  /-- From row to row of `Qualities` gain and loss do not fall. -/
  grows : r.qualities.Pairwise (fun e e' => val e.gain ≤ val e'.gain ∧ val e.loss ≤ val e'.loss)
  /-- `POpt` is a parameter of `Qualities`, and no other one is nearer to gain 1 and loss 0, up to rounding. -/
  opt : ∃ e ∈ r.qualities, e.parameter = r.pOpt ∧
    ∀ e' ∈ r.qualities, (val e.gain - 1) ^ 2 + val e.loss ^ 2 ≤ (val e'.gain - 1) ^ 2 + val e'.loss ^ 2 + 8 * u
  /-- `AUC` is between 1/2 and 1. -/
  auc : 1 / 2 ≤ val r.auc ∧ val r.auc ≤ 1

end Spec
end Lp
