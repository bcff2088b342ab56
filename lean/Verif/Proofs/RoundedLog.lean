import Verif.Proofs.QError
import Verif.Spec.Value

/-!
# The rounded arithmetic with logarithms obeys the laws; errors of qualities and of the values of partitions
-/

namespace Lp
open Spec
open scoped BigOperators

theorem roundedLog_laws (R D : RoundTo ℝ) (hd : D.u ≤ 1 / 2) :
    LogLaws (K := RoundedLog R D) RoundedLog.val R.u (logAccuracy R D) := by
  have hu := R.nonneg
  have hD := D.nonneg
  have base := roundedLaws R
  have tail : ∀ {g x v m : ℝ}, Close g x v m →
      Close (g * (1 + D.u) * (1 + R.u)) (RoundedLog.val (RoundedLog.of (R := R) D (D.rnd x))) v m := fun h =>
    (h.round hD (D.err _)).round hu (R.err _)
  have one : 1 ≤ (1 + 2 * D.u) := by linarith
  have small : 1 * (1 + D.u) * (1 + R.u) ≤ (1 + 2 * D.u) * (1 + D.u) * (1 + R.u) := by
    refine mul_le_mul_of_nonneg_right ?_ (by linarith)
    exact mul_le_mul_of_nonneg_right one (by linarith)
  have acc : (1 + 2 * D.u) * (1 + D.u) * (1 + R.u) = logAccuracy R D + 1 := by unfold logAccuracy; ring
  refine { unit_nonneg := hu, lt_iff := base.lt_iff, eq_iff := base.eq_iff, zero := base.zero, zero_add := base.zero_add,
           add_zero := base.add_zero, sub_zero := base.sub_zero, add_mono := base.add_mono, add_err := base.add_err,
           sub_err := base.sub_err, mul_err := base.mul_err, acc_nonneg := ?_, div_err := fun a b _ => R.err _,
           log_err := ?_, logInt_err := ?_, ln_err := ?_ }
  · have : 1 ≤ 1 * (1 + D.u) * (1 + R.u) := by nlinarith
    linarith
  · intro a ha
    have h : Close (1 + D.u) (D.rnd a.val) a.val a.val := by
      have := (Close.exact a.val).round hD (D.err a.val)
      rwa [one_mul, abs_of_pos ha] at this
    obtain ⟨_, h2⟩ := log_close h ha (by linarith)
    have h3 : Close (1 + 2 * D.u) (Real.log (D.rnd a.val)) (Real.log a.val) (1 + |Real.log a.val|) := by
      refine ⟨one, ?_, by linarith⟩
      have := abs_nonneg (Real.log a.val)
      nlinarith
    have := (tail h3).err
    rwa [acc, add_sub_cancel_right] at this
  · intro z hz _
    have h3 : Close 1 (Real.log (z : ℝ)) (Real.log (z : ℝ)) (1 + |Real.log (z : ℝ)|) := (Close.exact _).wider (by linarith)
    have := ((tail h3).mono small).err
    rwa [acc, add_sub_cancel_right] at this
  · have h3 := Close.exact (Real.log 2)
    rw [abs_of_pos log2_pos] at h3
    have := ((tail h3).mono small).err
    rwa [acc, add_sub_cancel_right] at this

/-- Exact arithmetic. -/
theorem exactLog_laws : LogLaws (K := ℝ) (fun x => x) 0 0 := by
  have base := exactRounded (E := ℝ)
  refine { unit_nonneg := le_refl _, lt_iff := base.lt_iff, eq_iff := base.eq_iff, zero := base.zero, zero_add := base.zero_add,
           add_zero := base.add_zero, sub_zero := base.sub_zero, add_mono := base.add_mono, add_err := base.add_err,
           sub_err := base.sub_err, mul_err := base.mul_err, acc_nonneg := le_refl _, div_err := ?_,
           log_err := ?_, logInt_err := ?_, ln_err := ?_ }
  · intro a b _
    have : (LD.toDiv.div a b : ℝ) - a / b = 0 := sub_self _
    change |(LD.toDiv.div a b : ℝ) - (a / b)| ≤ _
    rw [this]; simp
  · intro a _
    have : (LDLog.log a : ℝ) = Real.log a := rfl
    rw [this]; simp
  · intro z _ _
    have : (LDLog.logInt z : ℝ) = Real.log z := rfl
    rw [this]; simp
  · have : (LDLog.ln : ℝ) = Real.log 2 := rfl
    rw [this]; simp

variable {ι : Type} {m : Nat} {V : Nat → ι → ℝ} {s : Finset ι}

theorem gainScale_nonneg {v : ι → ℝ} (h : ∀ x ∈ s, 0 ≤ v x) : 0 ≤ gainScale s v :=
  add_nonneg (scale_nonneg (Finset.sum_nonneg h)) (Finset.sum_nonneg (fun x hx => scale_nonneg (h x hx)))

theorem lossScale_nonneg {v : ι → ℝ} (h : ∀ x ∈ s, 0 ≤ v x) : 0 ≤ lossScale s v := by
  have := Finset.sum_nonneg h
  have := log2_pos
  exact add_nonneg (by positivity) (gainScale_nonneg h)

theorem single_true (x : ι) : trueQuality m V {x} = ⟨0, 0⟩ := by
  unfold trueQuality gainSeries lossSeries lossOver gainOver
  simp

section
variable {K : Type} [LDLog K] {val : K → ℝ} {u w : ℝ}

/-- Quality `q` stands for `T` up to errors. -/
def QClose (val : K → ℝ) (g : ℝ) (m : Nat) (V : Nat → ι → ℝ) (s : Finset ι) (q : Quality K) : Prop :=
  Close g (val q.gain) (gainSeries m s V) (∑ k ∈ Finset.range m, gainScale s (V k)) ∧
  Close g (val q.loss) (lossSeries m s V) (∑ k ∈ Finset.range m, lossScale s (V k))

theorem qclose_single (laws : LogLaws val u w) {g : ℝ} (hg : 1 ≤ g) (hx : ∀ k < m, ∀ i ∈ s, 0 ≤ V k i) (hs : s.card = 1) :
    QClose val g m V s ⟨0, 0⟩ := by
  obtain ⟨x, rfl⟩ := Finset.card_eq_one.mp hs
  have h := single_true (m := m) (V := V) x
  unfold trueQuality at h
  have h1 : gainSeries m {x} V = 0 := congrArg Quality.gain h
  have h2 : lossSeries m {x} V = 0 := congrArg Quality.loss h
  unfold QClose
  rw [h1, h2, laws.zero]
  exact ⟨Close.zero hg (Finset.sum_nonneg (fun k hk => gainScale_nonneg (hx k (Finset.mem_range.mp hk)))),
    Close.zero hg (Finset.sum_nonneg (fun k hk => lossScale_nonneg (hx k (Finset.mem_range.mp hk))))⟩

theorem qclose_measured [DecidableEq ι] (laws : LogLaws val u w) (hw2 : w ≤ 1 / 2) {W : Nat → ι → K} {N : Nat} {q : Quality K}
    (hs : s.Nonempty) (hc : s.card ≤ N) (hb : N < 2147483648) (hn : (1 + u) ^ N ≤ 3 / 2)
    (hx : ∀ k < m, ∀ i ∈ s, 0 ≤ val (W k i)) (hq : Measured W s (s.card : Nat) m q) :
    QClose val (factor u w (3 * N + m + 1)) m (fun k i => val (W k i)) s q := by
  have hu := laws.unit_nonneg
  have hw := laws.acc_nonneg
  obtain ⟨h1, h2⟩ := measured_close laws hw2 hs (by omega)
    (le_trans (pow_le_pow_right₀ (by linarith) (by omega)) hn) hx hq
  exact ⟨h1.mono (factor_mono hu hw (by omega)), h2.mono (factor_mono hu hw (by omega))⟩
end

/-- Division of a known number by a constant. -/
theorem Close.divBy {g x v m u y G : ℝ} (h : Close g x v m) (hu : 0 ≤ u) (hy : |y - x / G| ≤ u * |x / G|) :
    Close (g * (1 + u)) y (v / G) (m / |G|) := by
  have h1 : Close g (x / G) (v / G) (m / |G|) := by
    refine ⟨h.one, ?_, ?_⟩
    · rw [← sub_div, abs_div, ← mul_div_assoc]
      exact div_le_div_of_nonneg_right h.err (abs_nonneg _)
    · rw [abs_div]
      exact div_le_div_of_nonneg_right h.mag (abs_nonneg _)
  exact h1.round hu hy

/-- Values of partitions: from the computed qualities `q` to the true ones `T`, whose terms have the sizes `G`, `B`. -/
theorem value_close {A : Type} {g a b : ℝ} {q T : A → Quality ℝ} {G B : A → ℝ} (L : List A)
    (h : ∀ x ∈ L, Close g (q x).gain (T x).gain (G x) ∧ Close g (q x).loss (T x).loss (B x)) :
    |valueOf a b q L - valueOf a b T L| ≤ (g - 1) * (L.map (fun x => |a| * G x + |b| * B x)).sum ∧
    (L.map (fun x => |a * (q x).gain| + |b * (q x).loss|)).sum ≤ g * (L.map (fun x => |a| * G x + |b| * B x)).sum := by
  induction L with
  | nil => simp [valueOf]
  | cons x L ih =>
    obtain ⟨h1, h2⟩ := ih (fun y hy => h y (List.mem_cons_of_mem _ hy))
    obtain ⟨c1, c2⟩ := h x (by simp)
    have e1 := mul_le_mul_of_nonneg_left c1.err (abs_nonneg a)
    have e2 := mul_le_mul_of_nonneg_left c2.err (abs_nonneg b)
    have e3 := mul_le_mul_of_nonneg_left c1.size (abs_nonneg a)
    have e4 := mul_le_mul_of_nonneg_left c2.size (abs_nonneg b)
    simp only [List.map_cons, List.sum_cons]
    constructor
    · have : valueOf a b q (x :: L) - valueOf a b T (x :: L) =
          (valueOf a b q L - valueOf a b T L) + (a * ((q x).gain - (T x).gain) - b * ((q x).loss - (T x).loss)) := by
        unfold valueOf; simp only [gainOf_cons, lossOf_cons]; ring
      rw [this]
      have t1 := abs_add_le (valueOf a b q L - valueOf a b T L) (a * ((q x).gain - (T x).gain) - b * ((q x).loss - (T x).loss))
      have t2 := abs_sub (a * ((q x).gain - (T x).gain)) (b * ((q x).loss - (T x).loss))
      rw [abs_mul, abs_mul] at t2
      nlinarith
    · rw [abs_mul, abs_mul]
      nlinarith

/-- From near-optimality for the computed qualities to near-optimality for the true ones. -/
theorem true_near {A : Type} {g H a b : ℝ} {q T : A → Quality ℝ} {G B : A → ℝ} (L L' : List A) (hH : 1 ≤ H)
    (h : ∀ x ∈ L, Close g (q x).gain (T x).gain (G x) ∧ Close g (q x).loss (T x).loss (B x))
    (h' : ∀ x ∈ L', Close g (q x).gain (T x).gain (G x) ∧ Close g (q x).loss (T x).loss (B x))
    (hq : valueOf a b q L' - valueOf a b q L ≤ (H - 1) * ((L.map (fun x => |a * (q x).gain| + |b * (q x).loss|)).sum +
      (L'.map (fun x => |a * (q x).gain| + |b * (q x).loss|)).sum)) :
    valueOf a b T L' - valueOf a b T L ≤ (g * H - 1) * ((L.map (fun x => |a| * G x + |b| * B x)).sum +
      (L'.map (fun x => |a| * G x + |b| * B x)).sum) := by
  obtain ⟨e1, s1⟩ := value_close (a := a) (b := b) L h
  obtain ⟨e2, s2⟩ := value_close (a := a) (b := b) L' h'
  have a1 := abs_le.mp e1
  have a2 := abs_le.mp e2
  have : (H - 1) * ((L.map (fun x => |a * (q x).gain| + |b * (q x).loss|)).sum +
      (L'.map (fun x => |a * (q x).gain| + |b * (q x).loss|)).sum) ≤ (H - 1) *
      (g * (L.map (fun x => |a| * G x + |b| * B x)).sum + g * (L'.map (fun x => |a| * G x + |b| * B x)).sum) :=
    mul_le_mul_of_nonneg_left (by linarith) (by linarith)
  nlinarith [a1.1, a2.2]

/-- The same with qualities divided by constants: the weights are divided instead. -/
theorem true_near_div {A : Type} {g H a b cg cl : ℝ} {q T : A → Quality ℝ} {G B : A → ℝ} (L L' : List A) (hH : 1 ≤ H)
    (h : ∀ x ∈ L, Close g (q x).gain ((T x).gain / cg) (G x / |cg|) ∧ Close g (q x).loss ((T x).loss / cl) (B x / |cl|))
    (h' : ∀ x ∈ L', Close g (q x).gain ((T x).gain / cg) (G x / |cg|) ∧ Close g (q x).loss ((T x).loss / cl) (B x / |cl|))
    (hq : valueOf a b q L' - valueOf a b q L ≤ (H - 1) * ((L.map (fun x => |a * (q x).gain| + |b * (q x).loss|)).sum +
      (L'.map (fun x => |a * (q x).gain| + |b * (q x).loss|)).sum)) :
    valueOf (a / cg) (b / cl) T L' - valueOf (a / cg) (b / cl) T L ≤ (g * H - 1) *
      ((L.map (fun x => |a / cg| * G x + |b / cl| * B x)).sum + (L'.map (fun x => |a / cg| * G x + |b / cl| * B x)).sum) := by
  have := true_near (T := fun x => ⟨(T x).gain / cg, (T x).loss / cl⟩) (G := fun x => G x / |cg|) (B := fun x => B x / |cl|) L L' hH h h' hq
  have e : ∀ M : List A, valueOf a b (fun x => (⟨(T x).gain / cg, (T x).loss / cl⟩ : Quality ℝ)) M = valueOf (a / cg) (b / cl) T M := by
    intro M
    unfold valueOf gainOf lossOf
    have e1 : ∀ (f : A → ℝ) (c : ℝ), (M.map (fun x => f x / c)).sum = (M.map f).sum / c := by
      intro f c
      induction M with
      | nil => simp
      | cons x M ih => simp only [List.map_cons, List.sum_cons, ih]; ring
    dsimp only
    rw [e1, e1]
    ring
  have e2 : ∀ x, |a| * (G x / |cg|) + |b| * (B x / |cl|) = |a / cg| * G x + |b / cl| * B x := by
    intro x; rw [abs_div, abs_div]; ring
  rw [e, e] at this
  simp only [e2] at this
  exact this

end Lp
