import Verif.Proofs.Range

/-!
# Arithmetic with a bounded range: sums and qualities
-/

namespace Lp
open Spec
open scoped BigOperators
variable {K' K : Type} [LDLog K'] [LDLog K] {fin : K' → Prop} {num : K' → K} {val : K → ℝ} {u w : ℝ} {b g E Q : Nat}

/-- The qualities a pair of machine numbers is. -/
def inQ (num : K' → K) (q : Quality K') : Quality K := ⟨num q.gain, num q.loss⟩

variable (ar : RangeArith fin num val u w b g E Q)
include ar

/-- Sums stay in range. -/
theorem sum_num {ι : Type} [DecidableEq ι] {f : ι → K'} {s : Finset ι} {x : K'} {μ : ι → ℝ} {a : Nat} (ha : a ≤ E) (h : SumOf f s x)
    (hf : ∀ i ∈ s, Held fin num val a (μ i) (f i)) (hE : (1 + u) ^ (s.card - 1) * ∑ i ∈ s, μ i ≤ 2 ^ E) :
    SumOf (fun i => num (f i)) s (num x) ∧ Held fin num val a ((1 + u) ^ (s.card - 1) * ∑ i ∈ s, μ i) x := by
  have hu := ar.laws.unit_nonneg
  have size : ∀ {s : Finset ι} {y : K}, SumOf (fun i => num (f i)) s y → (∀ i ∈ s, Held fin num val a (μ i) (f i)) →
      |val y| ≤ (1 + u) ^ (s.card - 1) * ∑ i ∈ s, μ i := by
    intro s y hy hf
    have := sumOf_close ar.laws hy (v := fun i => val (num (f i))) (μ := μ) (g := 1) (le_refl _)
      (fun i hi => ⟨le_refl _, by simp, (hf i hi).mag⟩)
    rw [one_mul] at this
    exact this.size
  induction h with
  | none =>
    rw [ar.range.zero.2]
    exact ⟨.none, Held.zero ar (by simp)⟩
  | one i =>
    have h1 : Held fin num val a ((1 + u) ^ (({i} : Finset ι).card - 1) * ∑ i ∈ {i}, μ i) (f i) := by
      simpa using hf i (by simp)
    exact ⟨.one i, h1⟩
  | @add s t x y hd hx hy ih1 ih2 =>
    have f1 : ∀ i ∈ s, Held fin num val a (μ i) (f i) := fun i hi => hf i (by simp [hi])
    have f2 : ∀ i ∈ t, Held fin num val a (μ i) (f i) := fun i hi => hf i (by simp [hi])
    have p1 : 0 ≤ ∑ i ∈ s, μ i := Finset.sum_nonneg (fun i hi => le_trans (abs_nonneg _) (f1 i hi).mag)
    have p2 : 0 ≤ ∑ i ∈ t, μ i := Finset.sum_nonneg (fun i hi => le_trans (abs_nonneg _) (f2 i hi).mag)
    have hsum := Finset.sum_union hd (f := μ)
    have hcard := Finset.card_union_of_disjoint hd
    have b1 : (1 + u) ^ (s.card - 1) * ∑ i ∈ s, μ i ≤ (1 + u) ^ ((s ∪ t).card - 1) * ∑ i ∈ s ∪ t, μ i :=
      mul_le_mul (pow_le_pow_right₀ (by linarith) (by omega)) (by linarith) p1 (by positivity)
    have b2 : (1 + u) ^ (t.card - 1) * ∑ i ∈ t, μ i ≤ (1 + u) ^ ((s ∪ t).card - 1) * ∑ i ∈ s ∪ t, μ i :=
      mul_le_mul (pow_le_pow_right₀ (by linarith) (by omega)) (by linarith) p2 (by positivity)
    obtain ⟨s1, h1⟩ := ih1 f1 (le_trans b1 hE)
    obtain ⟨s2, h2⟩ := ih2 f2 (le_trans b2 hE)
    have s3 := SumOf.add hd s1 s2
    obtain ⟨e, h3⟩ := add_num ar ha hE h1.fin h2.fin h1.grid h2.grid (size s3 hf)
    exact ⟨by rw [e]; exact s3, h3⟩

/-- `entropy`. -/
theorem entropy_num {a : Nat} {X : ℝ} {x : K'} (hx : Held fin num val a X x) (hp : 0 < val (num x)) (ha : a ≤ E) (hE : a + g + 3 ≤ E)
    (hQ : a ≤ Q) (hQX : X ≤ 2 ^ Q) (hM : 32 * (1 + E) * X ≤ 2 ^ E) :
    num (entropy x) = entropy (num x) ∧ Held fin num val (a + g + 3 + b) (32 * (1 + E) * X) (entropy x) := by
  have hXp : 0 < X := lt_of_lt_of_le hp (le_trans (le_abs_self _) hx.mag)
  have hE0 : (0 : ℝ) ≤ E := Nat.cast_nonneg E
  have hXE : X ≤ 2 ^ E := by nlinarith
  have hlow := hx.grid.low hp.ne'
  rw [abs_of_pos hp] at hlow
  have hup : val (num x) ≤ 2 ^ E := le_trans (le_trans (le_abs_self _) hx.mag) hXE
  have hl1 := log_bound (le_trans (pow_inv_le ha) hlow) hup
  obtain ⟨l1, l2⟩ := ar.range.log hx.fin hp (hx.grid.inRange hQ (le_trans hx.mag hQX))
  have lerr := ar.laws.log_err (num x) hp
  have lm : |val (num (LDLog.log x))| ≤ 2 * (1 + E) := by
    rw [l2]
    have h2 : |val (LDLog.log (num x))| ≤ |val (LDLog.log (num x)) - Real.log (val (num x))| + |Real.log (val (num x))| := by
      simpa using abs_add_le (val (LDLog.log (num x)) - Real.log (val (num x))) (Real.log (val (num x)))
    nlinarith [ar.w_le, ar.laws.acc_nonneg, abs_nonneg (Real.log (val (num x)))]
  obtain ⟨m1, m2, m3, m4⟩ := mul_num ar (x := x) (y := LDLog.log x) hx.fin (fun h => hx.grid.low h) hx.mag l1
    (fun h => by rw [l2] at h ⊢; exact ar.fine.log _ hp h) lm (by omega) (by nlinarith)
  obtain ⟨d1, d2⟩ := divLn_num ar m2 m3 m4 (by omega) (by nlinarith)
  unfold entropy
  refine ⟨by rw [d1, m1, l2], d2.mono (by omega) (by nlinarith)⟩

/-- `entropyReduction`. -/
theorem reduction_num {a : Nat} {X Y : ℝ} {x i : K'} (hx : Held fin num val a X x) (hi : Held fin num val (a + g + 3 + b) Y i)
    (hE : a + g + 3 + b ≤ E) (hQ : a ≤ Q) (hQX : X ≤ 2 ^ Q) (hM : 2 * (32 * (1 + E) * X + Y) ≤ 2 ^ E) :
    num (entropyReduction x i) = entropyReduction (num x) (num i) ∧
      Held fin num val (a + g + 3 + b) (2 * (32 * (1 + E) * X + Y)) (entropyReduction x i) := by
  have hX : 0 ≤ X := le_trans (abs_nonneg _) hx.mag
  have hY : 0 ≤ Y := le_trans (abs_nonneg _) hi.mag
  have hE0 : (0 : ℝ) ≤ E := Nat.cast_nonneg E
  have hp0 : 0 ≤ 32 * (1 + E) * X := by positivity
  have hz := ar.range.zero
  have hlt : (0 : K') < x ↔ (0 : K) < num x := by rw [ar.range.lt hz.1 hx.fin, hz.2]
  unfold entropyReduction
  by_cases h : (0 : K) < num x
  · rw [if_pos h, if_pos (hlt.mpr h)]
    rw [ar.laws.lt_iff, ar.laws.zero] at h
    obtain ⟨e1, e2⟩ := entropy_num ar hx h (by omega) (by omega) hQ hQX (by linarith)
    obtain ⟨s1, s2⟩ := Held.sub ar (by omega) e2 hi (le_refl _) hM
    exact ⟨by rw [s1, e1], s2⟩
  · rw [if_neg h, if_neg (fun h' => h (hlt.mp h'))]
    exact ⟨hz.2, Held.zero ar (by positivity)⟩

/-- The measure of a single value. -/
theorem single_num {a : Nat} {X : ℝ} {x : K'} (hx : Held fin num val a X x) (hE : a + g + 3 + b ≤ E) (hQ : a ≤ Q) (hQX : X ≤ 2 ^ Q) (hM : 32 * (1 + E) * X ≤ 2 ^ E) :
    num (entropyReduction x 0) = entropyReduction (num x) 0 ∧
      Held fin num val (a + g + 3 + b) (32 * (1 + E) * X) (entropyReduction x 0) := by
  have hX : 0 ≤ X := le_trans (abs_nonneg _) hx.mag
  have hz := ar.range.zero
  have hlt : (0 : K') < x ↔ (0 : K) < num x := by rw [ar.range.lt hz.1 hx.fin, hz.2]
  unfold entropyReduction
  by_cases h : (0 : K) < num x
  · rw [if_pos h, if_pos (hlt.mpr h)]
    rw [ar.laws.lt_iff, ar.laws.zero] at h
    obtain ⟨e1, e2⟩ := entropy_num ar hx h (by omega) (by omega) hQ hQX hM
    have hv : val (num (entropy x) - num 0) = val (num (entropy x)) := by rw [hz.2]; exact ar.laws.sub_zero _
    obtain ⟨s1, s2⟩ := ar.range.sub e2.fin hz.1 (by rw [hv]; exact e2.grid.inRange hE (le_trans e2.mag hM))
    refine ⟨by rw [s2, e1, hz.2], s1, ?_, ?_⟩
    · rw [s2, hv]; exact e2.grid
    · rw [s2, hv]; exact e2.mag
  · rw [if_neg h, if_neg (fun h' => h (hlt.mp h'))]
    exact ⟨hz.2, Held.zero ar (by positivity)⟩

/-- `divergence`. -/
theorem divergence_num {a n : Nat} {X Y : ℝ} {x i : K'} (h0 : 0 < n) (hn : n < 2147483648) (hx : Held fin num val a X x)
    (hi : Held fin num val (a + g + 3 + b) Y i)
    (hE : a + g + 3 + b ≤ E) (hQ : a ≤ Q) (hQX : X ≤ 2 ^ Q) (hM : 2 * (1024 * X + 2 * (32 * (1 + E) * X + Y)) ≤ 2 ^ E) :
    num (divergence n x i) = divergence n (num x) (num i) ∧
      Held fin num val (a + g + 3 + b) (2 * (1024 * X + 2 * (32 * (1 + E) * X + Y))) (divergence n x i) := by
  have hX : 0 ≤ X := le_trans (abs_nonneg _) hx.mag
  have hY : 0 ≤ Y := le_trans (abs_nonneg _) hi.mag
  have hE0 : (0 : ℝ) ≤ E := Nat.cast_nonneg E
  have hp0 : 0 ≤ 32 * (1 + E) * X := by positivity
  have hz : (0 : Int) < (n : Int) := by exact_mod_cast h0
  obtain ⟨l1, l2⟩ := ar.range.logInt (n : Int) hz
  have lerr := ar.laws.logInt_err (n : Int) hz (by exact_mod_cast hn)
  have n1 : (1 : ℝ) ≤ n := by exact_mod_cast h0
  have n2 : (n : ℝ) ≤ 2 ^ 31 := by norm_num; exact_mod_cast hn.le
  have lb := log_bound (E := 31) (x := (n : ℝ)) (le_trans (by norm_num) n1) n2
  have lm : |val (num (LDLog.logInt (n : Int) : K'))| ≤ 64 := by
    rw [l2]
    have h2 : |val (LDLog.logInt (n : Int) : K)| ≤ |val (LDLog.logInt (n : Int) : K) - Real.log ((n : Int) : ℝ)| +
        |Real.log ((n : Int) : ℝ)| := by
      simpa using abs_add_le (val (LDLog.logInt (n : Int) : K) - Real.log ((n : Int) : ℝ)) (Real.log ((n : Int) : ℝ))
    rw [Int.cast_natCast] at h2 lerr
    norm_num at lb
    nlinarith [ar.w_le, ar.laws.acc_nonneg, abs_nonneg (Real.log (n : ℝ))]
  obtain ⟨m1, m2, m3, m4⟩ := mul_num ar (x := x) (y := (LDLog.logInt (n : Int) : K')) hx.fin (fun h => hx.grid.low h) hx.mag l1
    (fun h => by rw [l2] at h ⊢; exact ar.fine.logInt _ hz h) lm (by omega) (by linarith)
  obtain ⟨d1, d2⟩ := divLn_num ar m2 m3 m4 (by omega) (by linarith)
  obtain ⟨r1, r2⟩ := reduction_num ar hx hi hE hQ hQX (by linarith)
  obtain ⟨s1, s2⟩ := Held.sub ar (a := a + g + 3 + b) (D := 2 * (1024 * X + 2 * (32 * (1 + E) * X + Y))) hE
    (d2.mono (by omega) (show 8 * (2 * (X * 64)) ≤ 1024 * X by linarith)) r2 (le_refl _) hM
  unfold divergence
  exact ⟨by rw [s1, d1, m1, l2, r1], s2⟩

set_option maxHeartbeats 800000 in
/-- The quality of a part stays in range. -/
theorem measured_num {ι : Type} [DecidableEq ι] {V : Nat → ι → K'} {s : Finset ι} {a m N : Nat} {D : ℝ} {q : Quality K'}
    (hs : s.Nonempty) (hc : s.card ≤ N) (hb : N < 2147483648) (hn : (1 + u) ^ N ≤ 3 / 2) (hm : (1 + u) ^ m ≤ 3 / 2)
    (hx : ∀ k < m, ∀ i ∈ s, Held fin num val a D (V k i)) (hE : a + g + 3 + b ≤ E) (hQ : a ≤ Q) (hQX : 2 * (N * D) ≤ (2 : ℝ) ^ Q)
    (hM : 2 ^ 13 * (m * ((E + 2) * N * D)) ≤ (2 : ℝ) ^ E) (hq : Measured V s (s.card : Nat) m q) :
    Measured (fun k i => num (V k i)) s (s.card : Nat) m (inQ num q) ∧
      Held fin num val (a + g + 3 + b) (2 ^ 13 * (m * ((E + 2) * N * D))) q.gain ∧
      Held fin num val (a + g + 3 + b) (2 ^ 13 * (m * ((E + 2) * N * D))) q.loss := by
  have hu := ar.laws.unit_nonneg
  have hE0 : (0 : ℝ) ≤ E := Nat.cast_nonneg E
  have hN1 : (1 : ℝ) ≤ N := by have := hs.card_pos; exact_mod_cast (by omega : 1 ≤ N)
  have hcp : (1 + u) ^ (s.card - 1) ≤ 3 / 2 := le_trans (pow_le_pow_right₀ (by linarith) (by omega)) hn
  have hcp0 : 0 ≤ (1 + u) ^ (s.card - 1) := by positivity
  have hcN : (s.card : ℝ) ≤ N := by exact_mod_cast hc
  -- one series
  set Z : ℝ := 2048 * ((E + 2) * (2 * (N * D))) with hZ
  have step : ∀ k, k < m → 0 ≤ D ∧ Z ≤ 2 ^ E ∧ ∀ S I, SumOf (V k) s S → SumOf (fun x => entropyReduction (V k x) 0) s I →
      SumOf (fun i => num (V k i)) s (num S) ∧ SumOf (fun i => entropyReduction (num (V k i)) 0) s (num I) ∧
      num (entropyReduction S I) = entropyReduction (num S) (num I) ∧
      Held fin num val (a + g + 3 + b) Z (entropyReduction S I) ∧
      num (divergence (s.card : Nat) S I) = divergence (s.card : Nat) (num S) (num I) ∧
      Held fin num val (a + g + 3 + b) Z (divergence (s.card : Nat) S I) := by
    intro k hk
    obtain ⟨i0, hi0⟩ := hs
    have hD : 0 ≤ D := le_trans (abs_nonneg _) (hx k hk i0 hi0).mag
    have hm1 : (1 : ℝ) ≤ m := by exact_mod_cast (by omega : 1 ≤ m)
    have hND : 0 ≤ (N : ℝ) * D := by positivity
    have hEND : 0 ≤ ((E : ℝ) + 2) * N * D := by positivity
    have h1 : ((E : ℝ) + 2) * N * D ≤ m * ((E + 2) * N * D) := by nlinarith
    have hZE : Z ≤ 2 ^ E := by rw [hZ]; nlinarith
    refine ⟨hD, hZE, ?_⟩
    intro S I hS hI
    have hDN : D ≤ N * D := by nlinarith
    have h2 : 32 * (1 + E) * (2 * (N * D)) ≤ (2 : ℝ) ^ E := by
      have : 32 * (1 + E) * (2 * (N * D)) ≤ Z := by rw [hZ]; nlinarith [mul_nonneg hE0 hND]
      linarith
    have h2D : 32 * (1 + (E : ℝ)) * D ≤ 32 * (1 + E) * (2 * (N * D)) := by nlinarith [mul_nonneg hE0 hND]
    have h3 : (1 + u) ^ (s.card - 1) * ∑ i ∈ s, D ≤ 2 * (N * D) := by
      rw [Finset.sum_const, nsmul_eq_mul]
      have := mul_le_mul_of_nonneg_right hcN hD
      nlinarith [mul_nonneg (Nat.cast_nonneg (α := ℝ) s.card) hD]
    obtain ⟨s1, s2⟩ := sum_num ar (a := a) (μ := fun _ => D) (by omega) hS (fun i hi => hx k hk i hi)
      (le_trans h3 (by nlinarith [mul_nonneg hE0 hND]))
    have s2 := s2.mono (le_refl _) h3
    have h4 : (1 + u) ^ (s.card - 1) * ∑ i ∈ s, (32 * (1 + (E : ℝ)) * D) ≤ 32 * (1 + E) * (2 * (N * D)) := by
      rw [← Finset.mul_sum, mul_left_comm]
      exact mul_le_mul_of_nonneg_left h3 (by positivity)
    have single : ∀ i ∈ s, num (entropyReduction (V k i) 0) = entropyReduction (num (V k i)) 0 ∧
        Held fin num val (a + g + 3 + b) (32 * (1 + E) * D) (entropyReduction (V k i) 0) :=
      fun i hi => single_num ar (hx k hk i hi) hE hQ (by linarith) (by linarith)
    obtain ⟨i1, i2⟩ := sum_num ar (a := a + g + 3 + b) (μ := fun _ => 32 * (1 + (E : ℝ)) * D) hE hI (fun i hi => (single i hi).2)
      (le_trans h4 h2)
    have i2 := i2.mono (le_refl _) h4
    have i1' : SumOf (fun i => entropyReduction (num (V k i)) 0) s (num I) := by
      have : ∀ {t : Finset ι} {y : K}, t ⊆ s → SumOf (fun i => num (entropyReduction (V k i) 0)) t y →
          SumOf (fun i => entropyReduction (num (V k i)) 0) t y := by
        intro t y ht h
        induction h with
        | none => exact .none
        | one i =>
          rw [(single i (ht (by simp))).1]
          exact SumOf.one (f := fun i => entropyReduction (num (V k i)) 0) i
        | add hd _ _ ih1 ih2 =>
          exact .add hd (ih1 (fun i hi => ht (by simp [hi]))) (ih2 (fun i hi => ht (by simp [hi])))
      exact this (fun _ h => h) i1
    have hg : 2 * (32 * (1 + (E : ℝ)) * (2 * (N * D)) + 32 * (1 + E) * (2 * (N * D))) ≤ Z := by
      rw [hZ]; nlinarith [mul_nonneg hE0 hND]
    have hl : 2 * (1024 * (2 * (N * D)) + 2 * (32 * (1 + (E : ℝ)) * (2 * (N * D)) + 32 * (1 + E) * (2 * (N * D)))) ≤ Z := by
      rw [hZ]; nlinarith [mul_nonneg hE0 hND]
    obtain ⟨g1, g2⟩ := reduction_num ar s2 i2 hE hQ hQX (by linarith)
    obtain ⟨d1, d2⟩ := divergence_num ar (n := s.card) (Finset.card_pos.mpr ⟨i0, hi0⟩) (by omega) s2 i2 hE hQ hQX (by linarith)
    exact ⟨s1, i1', g1, g2.mono (le_refl _) hg, d1, d2.mono (le_refl _) hl⟩
  have main : ∀ k q, k ≤ m → Measured V s (s.card : Nat) k q → Measured (fun k i => num (V k i)) s (s.card : Nat) k (inQ num q) ∧
      Held fin num val (a + g + 3 + b) ((1 + u) ^ k * (k * Z)) q.gain ∧
      Held fin num val (a + g + 3 + b) ((1 + u) ^ k * (k * Z)) q.loss := by
    intro k q hk h
    induction h with
    | zero =>
      refine ⟨?_, by simpa using Held.zero ar (le_refl _), by simpa using Held.zero ar (le_refl _)⟩
      unfold inQ
      rw [ar.range.zero.2]
      exact .zero
    | @next k q S I hq hS hI ih =>
      obtain ⟨h1, h2, h3⟩ := ih (by omega)
      obtain ⟨hD, hZE, hst⟩ := step k (by omega)
      obtain ⟨t1, t2, t3, t4, t5, t6⟩ := hst S I hS hI
      have hZ0 : 0 ≤ Z := by rw [hZ]; positivity
      have hp : 1 ≤ (1 + u) ^ k := one_le_pow₀ (by linarith)
      have hk0 : (0 : ℝ) ≤ k := Nat.cast_nonneg k
      have hb1 : (1 + u) * ((1 + u) ^ k * (k * Z) + Z) ≤ (1 + u) ^ (k + 1) * (((k + 1 : Nat) : ℝ) * Z) := by
        push_cast
        rw [pow_succ]
        have : Z ≤ (1 + u) ^ k * Z := by nlinarith
        nlinarith [mul_nonneg hu (sub_nonneg.mpr this)]
      have hb2 : (1 + u) ^ (k + 1) * (((k + 1 : Nat) : ℝ) * Z) ≤ 2 ^ E := by
        have e1 : (1 + u) ^ (k + 1) ≤ 3 / 2 := le_trans (pow_le_pow_right₀ (by linarith) hk) hm
        have e2 : ((k + 1 : Nat) : ℝ) ≤ m := by exact_mod_cast hk
        have e3 : ((k + 1 : Nat) : ℝ) * Z ≤ m * Z := mul_le_mul_of_nonneg_right e2 hZ0
        have e4 : (1 + u) ^ (k + 1) * (((k + 1 : Nat) : ℝ) * Z) ≤ 3 / 2 * (m * Z) :=
          mul_le_mul e1 e3 (by positivity) (by norm_num)
        refine le_trans e4 (le_trans ?_ hM)
        rw [hZ]
        have : 0 ≤ (m : ℝ) * ((E + 2) * N * D) := by positivity
        nlinarith
      obtain ⟨a1, a2⟩ := Held.add ar hE h2 t4 hb1 hb2
      obtain ⟨b1, b2⟩ := Held.add ar hE h3 t6 hb1 hb2
      refine ⟨?_, a2, b2⟩
      unfold inQ
      simp only [a1, b1, t3, t5]
      exact Measured.next h1 t1 t2
  obtain ⟨r1, r2, r3⟩ := main m q (le_refl _) hq
  have hfin : (1 + u) ^ m * (m * Z) ≤ 2 ^ 13 * (m * ((E + 2) * N * D)) := by
    rcases Nat.eq_zero_or_pos m with h0 | h0
    · subst h0; simp
    · obtain ⟨hD, _, _⟩ := step 0 h0
      have : 0 ≤ (m : ℝ) * ((E + 2) * N * D) := by positivity
      have e4 : (1 + u) ^ m * (m * Z) ≤ 3 / 2 * (m * Z) := mul_le_mul_of_nonneg_right hm (by rw [hZ]; positivity)
      refine le_trans e4 ?_
      rw [hZ]
      nlinarith
  exact ⟨r1, r2.mono (le_refl _) hfin, r3.mono (le_refl _) hfin⟩

end Lp
