import Verif.Proofs.RoundedLog
import Verif.Proofs.Ent
import Verif.Proofs.Extreme
import Verif.Spec.Machine
import Verif.Props.C58

/-!
# Sizes of the terms, bounded for all partitions at once; relative gains and losses with rounding
-/

namespace Lp
open Spec
open scoped BigOperators
variable {A ι : Type}

theorem Cuts.sum {cells : A → Finset ι} {L : List A} {U : Finset ι} (h : Cuts cells L U) (f : ι → ℝ) :
    (L.map (fun a => ∑ x ∈ cells a, f x)).sum = ∑ x ∈ U, f x := by
  classical
  have e : (Finset.univ : Finset (Fin L.length)).biUnion (fun i => cells L[i]) = U := by
    ext x
    simp only [Finset.mem_biUnion, Finset.mem_univ, true_and]
    constructor
    · rintro ⟨i, hx⟩; exact h.sub _ (List.getElem_mem _) hx
    · intro hx
      obtain ⟨i, hi, _⟩ := exactlyOne_fin (h.one x hx)
      exact ⟨i, hi⟩
  rw [← e, Finset.sum_biUnion (fun a _ b _ hab => h.disj hab), ← Fin.sum_univ_fun_getElem L (fun a => ∑ x ∈ cells a, f x)]
  rfl

theorem Cuts.length_le {cells : A → Finset ι} {L : List A} {U : Finset ι} (h : Cuts cells L U) : L.length ≤ U.card := by
  have := h.sum (fun _ => 1)
  simp only [Finset.sum_const, nsmul_eq_mul, mul_one] at this
  have h2 : ((L.length : Nat) : ℝ) ≤ (L.map (fun a => (((cells a).card : Nat) : ℝ))).sum := by
    have : ∀ M : List A, (∀ a ∈ M, (cells a).Nonempty) → ((M.length : Nat) : ℝ) ≤ (M.map (fun a => (((cells a).card : Nat) : ℝ))).sum := by
      intro M
      induction M with
      | nil => simp
      | cons a M ih =>
        intro hM
        have h1 := ih (fun b hb => hM b (by simp [hb]))
        have h2 : (1 : ℝ) ≤ (cells a).card := by exact_mod_cast (hM a (by simp)).card_pos
        simp only [List.length_cons, List.map_cons, List.sum_cons]
        push_cast
        linarith
    exact this L h.ne
  rw [this] at h2
  exact_mod_cast h2

theorem scale_le {x T : ℝ} (h0 : 0 ≤ x) (h : x ≤ T) : scale x ≤ (x * (1 + max 0 (Real.log T)) + 1) / Real.log 2 := by
  unfold scale
  refine div_le_div_of_nonneg_right ?_ log2_pos.le
  have hm : 0 ≤ max 0 (Real.log T) := le_max_left _ _
  rcases h0.eq_or_lt with rfl | hx
  · simp
  · rcases le_or_gt 1 x with h1 | h1
    · rw [abs_of_nonneg (Real.log_nonneg h1)]
      have := Real.log_le_log hx h
      have := le_max_right 0 (Real.log T)
      nlinarith
    · rw [abs_of_neg (Real.log_neg hx h1)]
      have := Real.one_sub_inv_le_log_of_pos hx
      have h2 : x * (1 - x⁻¹) ≤ x * Real.log x := mul_le_mul_of_nonneg_left this h0
      rw [mul_sub, mul_inv_cancel₀ hx.ne'] at h2
      have := mul_nonneg h0 hm
      nlinarith

section
variable {cells : A → Finset ι} {L : List A} {U : Finset ι} {v : ι → ℝ}

/-- Over a partition the terms of the losses, and of the gains, are bounded by a number that depends on the data only. -/
theorem Cuts.scale_le (h : Cuts cells L U) (hU : U.Nonempty) (hv : ∀ x ∈ U, 0 ≤ v x) :
    (L.map (fun a => lossScale (cells a) v)).sum ≤ dataSize U v ∧ (L.map (fun a => gainScale (cells a) v)).sum ≤ dataSize U v := by
  have L2 := log2_pos
  set T := ∑ x ∈ U, v x with hT
  set M := max 0 (Real.log T) with hM
  have hM0 : 0 ≤ M := le_max_left _ _
  have hT0 : 0 ≤ T := Finset.sum_nonneg hv
  have hc1 : 1 ≤ U.card := hU.card_pos
  have hN : 0 ≤ Real.log U.card := Real.log_nonneg (by exact_mod_cast hc1)
  have part : ∀ a ∈ L, 0 ≤ ∑ x ∈ cells a, v x ∧ ∑ x ∈ cells a, v x ≤ T := fun a ha =>
    ⟨Finset.sum_nonneg (fun x hx => hv x (h.sub a ha hx)),
      Finset.sum_le_sum_of_subset_of_nonneg (h.sub a ha) (fun x hx _ => hv x hx)⟩
  -- the bound for one part
  let g : A → ℝ := fun a => ∑ x ∈ cells a, ((v x * (1 + M) + 1) / Real.log 2)
  have b1 : ∀ a ∈ L, gainScale (cells a) v ≤ ((∑ x ∈ cells a, v x) * (1 + M) + 1) / Real.log 2 +
      ∑ x ∈ cells a, ((v x * (1 + M) + 1) / Real.log 2) := by
    intro a ha
    unfold gainScale
    refine add_le_add (Lp.scale_le (part a ha).1 (part a ha).2) (Finset.sum_le_sum (fun x hx => ?_))
    refine Lp.scale_le (hv x (h.sub a ha hx)) ?_
    exact Finset.single_le_sum (f := v) (fun y hy => hv y hy) (h.sub a ha hx)
  have b2 : ∀ a ∈ L, lossScale (cells a) v ≤ (∑ x ∈ cells a, v x) * (1 + Real.log U.card) / Real.log 2 +
      (((∑ x ∈ cells a, v x) * (1 + M) + 1) / Real.log 2 + ∑ x ∈ cells a, ((v x * (1 + M) + 1) / Real.log 2)) := by
    intro a ha
    unfold lossScale
    refine add_le_add (div_le_div_of_nonneg_right (mul_le_mul_of_nonneg_left ?_ (part a ha).1) L2.le) (b1 a ha)
    have c1 : 1 ≤ (cells a).card := (h.ne a ha).card_pos
    have c2 := Finset.card_le_card (h.sub a ha)
    rw [abs_of_nonneg (Real.log_nonneg (by exact_mod_cast c1))]
    have := Real.log_le_log (x := ((cells a).card : ℝ)) (y := (U.card : ℝ)) (by exact_mod_cast c1) (by exact_mod_cast c2)
    linarith
  -- the sums
  have s1 : ((L.map (fun a => ((∑ x ∈ cells a, v x) * (1 + M) + 1) / Real.log 2)).sum) = (T * (1 + M) + L.length) / Real.log 2 := by
    have := h.sum v
    rw [← hT] at this
    rw [← this]
    clear this hT b1 b2 part h
    induction L with
    | nil => simp
    | cons a L ih => simp only [List.map_cons, List.sum_cons, List.length_cons, ih]; push_cast; ring
  have s2 : ((L.map (fun a => ∑ x ∈ cells a, ((v x * (1 + M) + 1) / Real.log 2))).sum) = (T * (1 + M) + U.card) / Real.log 2 := by
    rw [h.sum, ← Finset.sum_div, Finset.sum_add_distrib, ← Finset.sum_mul, ← hT]
    simp
  have s3 : ((L.map (fun a => (∑ x ∈ cells a, v x) * (1 + Real.log U.card) / Real.log 2)).sum) = T * (1 + Real.log U.card) / Real.log 2 := by
    have := h.sum v
    rw [← hT] at this
    rw [← this]
    clear this hT b1 b2 part h s1 s2
    induction L with
    | nil => simp
    | cons a L ih => simp only [List.map_cons, List.sum_cons, ih]; ring
  have hlen : ((L.length : Nat) : ℝ) ≤ U.card := by exact_mod_cast h.length_le
  have key : (T * (1 + M) + L.length) / Real.log 2 + (T * (1 + M) + U.card) / Real.log 2 ≤
      (T * (2 + 2 * M) + 2 * U.card) / Real.log 2 := by
    rw [← add_div]
    exact div_le_div_of_nonneg_right (by linarith) L2.le
  have lossB : (L.map (fun a => lossScale (cells a) v)).sum ≤ dataSize U v := by
    refine le_trans (List.sum_le_sum b2) ?_
    rw [List.sum_map_add, List.sum_map_add, s1, s2, s3]
    refine le_trans (add_le_add_right key _) ?_
    unfold dataSize
    rw [← add_div, ← hT, ← hM]
    exact div_le_div_of_nonneg_right (by linarith) L2.le
  refine ⟨lossB, le_trans (List.sum_le_sum b1) ?_⟩
  rw [List.sum_map_add, s1, s2]
  refine le_trans key ?_
  unfold dataSize
  rw [← hT, ← hM]
  refine div_le_div_of_nonneg_right ?_ L2.le
  have := mul_nonneg hT0 hN
  nlinarith

/-- Over several series. -/
theorem Cuts.series_le {m : Nat} {V : Nat → ι → ℝ} (h : Cuts cells L U) (hU : U.Nonempty) (hv : ∀ k < m, ∀ x ∈ U, 0 ≤ V k x) :
    (L.map (fun a => ∑ k ∈ Finset.range m, gainScale (cells a) (V k))).sum ≤ ∑ k ∈ Finset.range m, dataSize U (V k) ∧
    (L.map (fun a => ∑ k ∈ Finset.range m, lossScale (cells a) (V k))).sum ≤ ∑ k ∈ Finset.range m, dataSize U (V k) := by
  have swap : ∀ (f : A → Nat → ℝ) (M : List A), (M.map (fun a => ∑ k ∈ Finset.range m, f a k)).sum =
      ∑ k ∈ Finset.range m, (M.map (fun a => f a k)).sum := by
    intro f M
    induction M with
    | nil => simp
    | cons a M ih => simp only [List.map_cons, List.sum_cons, ih, Finset.sum_add_distrib]
  rw [swap (fun a k => gainScale (cells a) (V k)), swap (fun a k => lossScale (cells a) (V k))]
  exact ⟨Finset.sum_le_sum (fun k hk => (h.scale_le hU (hv k (Finset.mem_range.mp hk))).2),
    Finset.sum_le_sum (fun k hk => (h.scale_le hU (hv k (Finset.mem_range.mp hk))).1)⟩
end

/-! ## Division by the computed whole -/

theorem whole_close {g R X S κ : ℝ} (hX : 0 < X) (h : Close g R X S) (hS : S ≤ κ * X) (hc : (g - 1) * κ ≤ 1 / 8) :
    7 / 8 * X ≤ R ∧ |R - X| ≤ (g - 1) * κ * X := by
  have h1 : |R - X| ≤ (g - 1) * κ * X := le_trans h.err (by
    rw [mul_assoc]; exact mul_le_mul_of_nonneg_left hS (by linarith [h.one]))
  have h2 := abs_le.mp h1
  exact ⟨by nlinarith, h1⟩

/-- A number relative to the computed whole, and relative to the true one. -/
theorem rel_shift {e κ R X x : ℝ} (hX : 0 < X) (hR : 7 / 8 * X ≤ R) (h : |R - X| ≤ e * κ * X) (hx : |x| ≤ X) :
    |x / R - x / X| ≤ 8 / 7 * (e * κ) := by
  have hR0 : 0 < R := by linarith
  have e1 : x / R - x / X = x / X * ((X - R) / R) := by field_simp
  rw [e1, abs_mul, abs_div, abs_div, abs_of_pos hX, abs_of_pos hR0, abs_sub_comm X R]
  have a1 : |x| / X ≤ 1 := by rw [div_le_one hX]; exact hx
  have a2 : |R - X| / R ≤ 8 / 7 * (e * κ) := by
    rw [div_le_iff₀ hR0]
    have : 0 ≤ e * κ := by
      have := le_trans (abs_nonneg _) h
      by_contra hc
      push Not at hc
      nlinarith
    nlinarith
  calc |x| / X * (|R - X| / R) ≤ 1 * (|R - X| / R) := mul_le_mul_of_nonneg_right a1 (by positivity)
    _ ≤ _ := by rw [one_mul]; exact a2

/-- The reported sum of computed relative numbers. -/
theorem rel_sum {L : List A} {x y s : A → ℝ} {g h R X κ Q : ℝ} (hX : 0 < X) (hR : 7 / 8 * X ≤ R) (hRX : |R - X| ≤ (g * h - 1) * κ * X)
    (hh : 1 ≤ h) (hg : 1 ≤ g) (hc : ∀ a ∈ L, Close g (y a) (x a / R) (s a / |R|))
    (hs : (L.map s).sum ≤ κ * X) (hsn : ∀ a ∈ L, 0 ≤ s a)
    (hx : |(L.map x).sum| ≤ X) (hQ : |Q - (L.map y).sum| ≤ (h - 1) * (L.map (fun a => |y a|)).sum) :
    |Q - (L.map x).sum / X| ≤ 16 / 7 * ((g * h - 1) * κ) := by
  have hR0 : 0 < R := by linarith
  have e1 : (L.map (fun a => |y a|)).sum ≤ g * ((L.map s).sum / R) ∧ |(L.map y).sum - (L.map x).sum / R| ≤ (g - 1) * ((L.map s).sum / R) := by
    clear hs hx hQ
    induction L with
    | nil => simp
    | cons a L ih =>
      obtain ⟨i1, i2⟩ := ih (fun b hb => hc b (by simp [hb])) (fun b hb => hsn b (by simp [hb]))
      have c := hc a (by simp)
      rw [abs_of_pos hR0] at c
      simp only [List.map_cons, List.sum_cons, add_div]
      constructor
      · have := c.size
        rw [mul_add]; linarith
      · have := c.err
        have t : y a + (L.map y).sum - (x a / R + (L.map x).sum / R) = (y a - x a / R) + ((L.map y).sum - (L.map x).sum / R) := by ring
        rw [t, mul_add]
        exact le_trans (abs_add_le _ _) (add_le_add this i2)
  have k0 : (L.map s).sum / R ≤ 8 / 7 * κ := by
    have p0 : 0 ≤ (L.map s).sum := List.sum_nonneg (by
      intro z hz
      obtain ⟨a, ha, rfl⟩ := List.mem_map.mp hz
      exact hsn a ha)
    have hk : 0 ≤ κ := by
      by_contra hc
      push Not at hc
      nlinarith
    rw [div_le_iff₀ hR0]
    nlinarith
  have gh : 0 ≤ g * h - 1 := by nlinarith
  have s1 := rel_shift hX hR hRX hx
  have t1 : |Q - (L.map x).sum / R| ≤ (g * h - 1) * ((L.map s).sum / R) := by
    have t : Q - (L.map x).sum / R = (Q - (L.map y).sum) + ((L.map y).sum - (L.map x).sum / R) := by ring
    rw [t]
    refine le_trans (abs_add_le _ _) (le_trans (add_le_add (le_trans hQ (mul_le_mul_of_nonneg_left e1.1 (by linarith))) e1.2) (le_of_eq ?_))
    ring
  have t : Q - (L.map x).sum / X = (Q - (L.map x).sum / R) + ((L.map x).sum / R - (L.map x).sum / X) := by ring
  rw [t]
  refine le_trans (abs_add_le _ _) ?_
  have := mul_le_mul_of_nonneg_left k0 gh
  linarith

/-- Values relative to the computed whole and relative to the true one. -/
theorem rel_value {a b G G' B B' Rg Rl X Y c κ s s' : ℝ} (hX : 0 < X) (hY : 0 < Y) (ha : 0 ≤ a) (ha1 : a ≤ 1) (hb : 0 ≤ b) (hb1 : b ≤ 1)
    (hRg : 7 / 8 * X ≤ Rg) (hRl : 7 / 8 * Y ≤ Rl) (eg : |Rg - X| ≤ c * κ * X) (el : |Rl - Y| ≤ c * κ * Y) (hc : 0 ≤ c) (hκ : 0 ≤ κ)
    (hG : 0 ≤ G ∧ G ≤ X) (hG' : 0 ≤ G' ∧ G' ≤ X) (hB : 0 ≤ B ∧ B ≤ Y) (hB' : 0 ≤ B' ∧ B' ≤ Y)
    (h : (a / Rg * G' - b / Rl * B') - (a / Rg * G - b / Rl * B) ≤ c * (a / Rg * s + b / Rl * s'))
    (hs : s ≤ 2 * (κ * X)) (hs' : s' ≤ 2 * (κ * Y)) :
    a * (G' / X) - b * (B' / Y) ≤ a * (G / X) - b * (B / Y) + 8 * (c * κ) := by
  have p1 : 0 < Rg := by linarith
  have p2 : 0 < Rl := by linarith
  have d1 := rel_shift (x := G' - G) hX hRg eg (by rw [abs_le]; constructor <;> linarith)
  have d2 := rel_shift (x := B' - B) hY hRl el (by rw [abs_le]; constructor <;> linarith)
  have ck : 0 ≤ c * κ := mul_nonneg hc hκ
  have q : ∀ {a R X s : ℝ}, 0 ≤ a → a ≤ 1 → 0 < X → 7 / 8 * X ≤ R → s ≤ 2 * (κ * X) → a / R * s ≤ 16 / 7 * κ := by
    intro a R X s ha ha1 hX hR hs
    have p : 0 < R := by linarith
    calc a / R * s ≤ a / R * (2 * (κ * X)) := mul_le_mul_of_nonneg_left hs (by positivity)
      _ = a * (2 * (κ * X)) / R := by ring
      _ ≤ 1 * (2 * (κ * X)) / R := div_le_div_of_nonneg_right (mul_le_mul_of_nonneg_right ha1 (by positivity)) p.le
      _ ≤ _ := by rw [div_le_iff₀ p]; nlinarith
  have q1 := mul_le_mul_of_nonneg_left (add_le_add (q ha ha1 hX hRg hs) (q hb hb1 hY hRl hs')) hc
  have k1 : a * ((G' - G) / X) - a * ((G' - G) / Rg) ≤ 8 / 7 * (c * κ) := by
    have := (abs_le.mp d1).1
    have : (G' - G) / X - (G' - G) / Rg ≤ 8 / 7 * (c * κ) := by linarith
    calc _ = a * ((G' - G) / X - (G' - G) / Rg) := by ring
      _ ≤ a * (8 / 7 * (c * κ)) := mul_le_mul_of_nonneg_left this ha
      _ ≤ _ := by nlinarith
  have k2 : b * ((B' - B) / Rl) - b * ((B' - B) / Y) ≤ 8 / 7 * (c * κ) := by
    have := (abs_le.mp d2).2
    calc _ = b * ((B' - B) / Rl - (B' - B) / Y) := by ring
      _ ≤ b * (8 / 7 * (c * κ)) := mul_le_mul_of_nonneg_left this hb
      _ ≤ _ := by nlinarith
  have e1 : (a / Rg * G' - b / Rl * B') - (a / Rg * G - b / Rl * B) = a * ((G' - G) / Rg) - b * ((B' - B) / Rl) := by ring
  rw [e1] at h
  have e2 : a * (G' / X) - b * (B' / Y) - (a * (G / X) - b * (B / Y)) = a * ((G' - G) / X) - b * ((B' - B) / Y) := by ring
  linarith

/-! ## One best partition -/

section
variable {K : Type} [LDLog K] {val : K → ℝ} {u w κ : ℝ} {k e m : Nat} {V : Nat → ι → ℝ} {cells : A → Finset ι} {w0 : A} {q q' : A → Quality K}

/-- Gain and loss of a part relative to those of the whole `w0`. -/
noncomputable def relTo (m : Nat) (V : Nat → ι → ℝ) (cells : A → Finset ι) (w0 : A) (a : A) : Quality ℝ :=
  ⟨(entQ m V (cells a)).gain / (entQ m V (cells w0)).gain, (entQ m V (cells a)).loss / (entQ m V (cells w0)).loss⟩

theorem machine_best (laws : LogLaws val u w) (hn : (cells w0).Nonempty) (hv : ∀ k < m, ∀ x ∈ cells w0, 0 ≤ V k x)
    (hX : 0 < (entQ m V (cells w0)).gain) (hY : 0 < (entQ m V (cells w0)).loss)
    (sX : ∑ k ∈ Finset.range m, dataSize (cells w0) (V k) ≤ κ * (entQ m V (cells w0)).gain)
    (sY : ∑ k ∈ Finset.range m, dataSize (cells w0) (V k) ≤ κ * (entQ m V (cells w0)).loss)
    (hκ : 0 ≤ κ) (hc : relErr u w κ (k + 1 + e) ≤ 1)
    (hw0 : QClose val (factor u w k) m V (cells w0) (q w0))
    {L : List A} (hL : Cuts cells L (cells w0)) (qL : ∀ x ∈ L, QClose val (factor u w k) m V (cells x) (q x))
    (eL : ∀ x ∈ L, q' x = (q x).div (q w0)) (he : L.length - 1 ≤ e) {Q : Quality K}
    (hQ : C50.NearSum ((1 + u) ^ (L.length - 1) - 1) ⟨val Q.gain, val Q.loss⟩ (C50.exact val q') L) :
    val (q w0).gain ≠ 0 ∧ val (q w0).loss ≠ 0 ∧
    (∀ a ∈ L, |val (q' a).gain - (relTo m V cells w0 a).gain| ≤ relErr u w κ (k + 1 + e) ∧
      |val (q' a).loss - (relTo m V cells w0 a).loss| ≤ relErr u w κ (k + 1 + e)) ∧
    |val Q.gain - gainOf (relTo m V cells w0) L| ≤ relErr u w κ (k + 1 + e) ∧
    |val Q.loss - lossOf (relTo m V cells w0) L| ≤ relErr u w κ (k + 1 + e) ∧
    ∀ (a b : ℝ), 0 ≤ a → a ≤ 1 → 0 ≤ b → b ≤ 1 → ∀ L', Cuts cells L' (cells w0) →
      (∀ x ∈ L', QClose val (factor u w k) m V (cells x) (q x)) → (∀ x ∈ L', q' x = (q x).div (q w0)) →
      C50.Within ((1 + u) ^ e - 1) a b (C50.exact val q') L L' →
      a * gainOf (relTo m V cells w0) L' - b * lossOf (relTo m V cells w0) L' ≤
        a * gainOf (relTo m V cells w0) L - b * lossOf (relTo m V cells w0) L + relErr u w κ (k + 1 + e) := by
  have hu := laws.unit_nonneg
  have hw := laws.acc_nonneg
  set X := (entQ m V (cells w0)).gain with eX
  set Y := (entQ m V (cells w0)).loss with eY
  set c := (1 + w) ^ 3 * (1 + u) ^ (k + 1 + e) - 1 with ec
  have hg1 := factor_one (u := u) (w := w) hu hw (k + 1)
  have hh1 : 1 ≤ (1 + u) ^ e := one_le_pow₀ (by linarith)
  have egh : factor u w (k + 1) * (1 + u) ^ e - 1 = c := by rw [ec, factor, mul_assoc, ← pow_add]
  have hc0 : 0 ≤ c := by rw [← egh]; nlinarith
  have hck : c * κ ≤ 1 / 8 := by unfold relErr at hc; linarith
  have hfc : factor u w k - 1 ≤ c := by
    rw [← egh]
    have := factor_mono (u := u) (w := w) hu hw (show k ≤ k + 1 by omega)
    nlinarith
  have single := (Cuts.single (cells := cells) hn).series_le hn hv
  simp only [List.map_cons, List.map_nil, List.sum_cons, List.sum_nil, add_zero] at single
  have hfk : (factor u w k - 1) * κ ≤ 1 / 8 := le_trans (mul_le_mul_of_nonneg_right hfc hκ) hck
  obtain ⟨rg, rg'⟩ := whole_close hX hw0.1 (le_trans single.1 sX) hfk
  obtain ⟨rl, rl'⟩ := whole_close hY hw0.2 (le_trans single.2 sY) hfk
  have rg' : |val (q w0).gain - X| ≤ c * κ * X := le_trans rg' (mul_le_mul_of_nonneg_right (mul_le_mul_of_nonneg_right hfc hκ) hX.le)
  have rl' : |val (q w0).loss - Y| ≤ c * κ * Y := le_trans rl' (mul_le_mul_of_nonneg_right (mul_le_mul_of_nonneg_right hfc hκ) hY.le)
  have ng : val (q w0).gain ≠ 0 := by have : 0 < val (q w0).gain := by linarith
                                      exact this.ne'
  have nl : val (q w0).loss ≠ 0 := by have : 0 < val (q w0).loss := by linarith
                                      exact this.ne'
  refine ⟨ng, nl, ?_⟩
  have step : ∀ x ∈ L,
      Close (factor u w (k + 1)) (val (q' x).gain) ((entQ m V (cells x)).gain / val (q w0).gain)
        ((∑ k ∈ Finset.range m, gainScale (cells x) (V k)) / |val (q w0).gain|) ∧
      Close (factor u w (k + 1)) (val (q' x).loss) ((entQ m V (cells x)).loss / val (q w0).loss)
        ((∑ k ∈ Finset.range m, lossScale (cells x) (V k)) / |val (q w0).loss|) := by
    intro x hx
    obtain ⟨c1, c2⟩ := qL x hx
    rw [← factor_succ, eL x hx]
    exact ⟨c1.divBy hu (laws.div_err _ _ ng), c2.divBy hu (laws.div_err _ _ nl)⟩
  have nn : ∀ x ∈ L, 0 ≤ (∑ k ∈ Finset.range m, gainScale (cells x) (V k)) ∧ 0 ≤ (∑ k ∈ Finset.range m, lossScale (cells x) (V k)) :=
    fun x hx => ⟨Finset.sum_nonneg (fun k hk => gainScale_nonneg (fun y hy => hv k (Finset.mem_range.mp hk) y (hL.sub x hx hy))),
      Finset.sum_nonneg (fun k hk => lossScale_nonneg (fun y hy => hv k (Finset.mem_range.mp hk) y (hL.sub x hx hy)))⟩
  have bound : ∀ {M : List A}, Cuts cells M (cells w0) →
      (0 ≤ gainOf (fun a => entQ m V (cells a)) M ∧ gainOf (fun a => entQ m V (cells a)) M ≤ X) ∧
      (0 ≤ lossOf (fun a => entQ m V (cells a)) M ∧ lossOf (fun a => entQ m V (cells a)) M ≤ Y) := by
    intro M hM
    have h1 := hM.whole hn hv
    have h2 := hM.nonneg hv
    exact ⟨⟨h2.1, h1.1⟩, ⟨h2.2, h1.2⟩⟩
  have sc := hL.series_le hn hv
  have sg := le_trans sc.1 sX
  have sl := le_trans sc.2 sY
  have bL := bound hL
  have relG : ∀ M : List A, gainOf (relTo m V cells w0) M = gainOf (fun a => entQ m V (cells a)) M / X ∧
      lossOf (relTo m V cells w0) M = lossOf (fun a => entQ m V (cells a)) M / Y := by
    intro M
    unfold gainOf lossOf relTo
    constructor <;> simp only [div_eq_mul_inv] <;> rw [List.sum_map_mul_right]
  have le8 : 16 / 7 * (c * κ) ≤ relErr u w κ (k + 1 + e) := by
    unfold relErr
    rw [← ec]
    have := mul_nonneg hc0 hκ
    linarith
  have pe : (1 + u) ^ (L.length - 1) - 1 ≤ (1 + u) ^ e - 1 := by
    have := pow_le_pow_right₀ (show 1 ≤ 1 + u by linarith) he
    linarith
  refine ⟨?_, ?_, ?_, ?_⟩
  · intro a ha
    have one : ∀ {f : A → ℝ} {B : ℝ}, (∀ x ∈ L, 0 ≤ f x) → (L.map f).sum ≤ B → f a ≤ B := by
      intro f B hf hB
      refine le_trans (List.single_le_sum ?_ _ (List.mem_map_of_mem (f := f) ha)) hB
      intro z hz
      obtain ⟨x, hx, rfl⟩ := List.mem_map.mp hz
      exact hf x hx
    have nq : ∀ x ∈ L, 0 ≤ (entQ m V (cells x)).gain ∧ 0 ≤ (entQ m V (cells x)).loss := fun x hx =>
      entQ_nonneg (fun k hk y hy => hv k hk y (hL.sub x hx hy))
    have ga := one (fun x hx => (nq x hx).1) bL.1.2
    have la := one (fun x hx => (nq x hx).2) bL.2.2
    have r1 := rel_sum (L := [a]) (x := fun a => (entQ m V (cells a)).gain) (y := fun a => val (q' a).gain)
      (s := fun a => ∑ k ∈ Finset.range m, gainScale (cells a) (V k)) (h := (1 + u) ^ e) (Q := val (q' a).gain) hX rg
      (by rw [egh]; exact rg') hh1 hg1 (by intro x hx; obtain rfl := List.mem_singleton.mp hx; exact (step _ ha).1)
      (by simpa using one (fun x hx => (nn x hx).1) sg) (by intro x hx; obtain rfl := List.mem_singleton.mp hx; exact (nn _ ha).1)
      (by simp only [List.map_cons, List.map_nil, List.sum_cons, List.sum_nil, add_zero]; rw [abs_of_nonneg (nq a ha).1]; exact ga)
      (by simp only [List.map_cons, List.map_nil, List.sum_cons, List.sum_nil, add_zero, sub_self, abs_zero]
          exact mul_nonneg (by linarith) (abs_nonneg _))
    have r2 := rel_sum (L := [a]) (x := fun a => (entQ m V (cells a)).loss) (y := fun a => val (q' a).loss)
      (s := fun a => ∑ k ∈ Finset.range m, lossScale (cells a) (V k)) (h := (1 + u) ^ e) (Q := val (q' a).loss) hY rl
      (by rw [egh]; exact rl') hh1 hg1 (by intro x hx; obtain rfl := List.mem_singleton.mp hx; exact (step _ ha).2)
      (by simpa using one (fun x hx => (nn x hx).2) sl) (by intro x hx; obtain rfl := List.mem_singleton.mp hx; exact (nn _ ha).2)
      (by simp only [List.map_cons, List.map_nil, List.sum_cons, List.sum_nil, add_zero]; rw [abs_of_nonneg (nq a ha).2]; exact la)
      (by simp only [List.map_cons, List.map_nil, List.sum_cons, List.sum_nil, add_zero, sub_self, abs_zero]
          exact mul_nonneg (by linarith) (abs_nonneg _))
    simp only [List.map_cons, List.map_nil, List.sum_cons, List.sum_nil, add_zero] at r1 r2
    rw [egh] at r1 r2
    exact ⟨le_trans r1 le8, le_trans r2 le8⟩
  · have r1 := rel_sum (L := L) (x := fun a => (entQ m V (cells a)).gain) (y := fun a => val (q' a).gain)
      (s := fun a => ∑ k ∈ Finset.range m, gainScale (cells a) (V k)) (h := (1 + u) ^ e) (Q := val Q.gain) hX rg
      (by rw [egh]; exact rg') hh1 hg1 (fun x hx => (step _ hx).1) sg (fun x hx => (nn x hx).1)
      (by have := bL.1; unfold gainOf at this; rw [abs_of_nonneg this.1]; exact this.2)
      (le_trans hQ.1 (mul_le_mul_of_nonneg_right pe (List.sum_nonneg (by
        intro z hz; obtain ⟨x, hx, rfl⟩ := List.mem_map.mp hz; exact abs_nonneg _))))
    rw [egh] at r1
    rw [(relG L).1]
    exact le_trans r1 le8
  · have r2 := rel_sum (L := L) (x := fun a => (entQ m V (cells a)).loss) (y := fun a => val (q' a).loss)
      (s := fun a => ∑ k ∈ Finset.range m, lossScale (cells a) (V k)) (h := (1 + u) ^ e) (Q := val Q.loss) hY rl
      (by rw [egh]; exact rl') hh1 hg1 (fun x hx => (step _ hx).2) sl (fun x hx => (nn x hx).2)
      (by have := bL.2; unfold lossOf at this; rw [abs_of_nonneg this.1]; exact this.2)
      (le_trans hQ.2 (mul_le_mul_of_nonneg_right pe (List.sum_nonneg (by
        intro z hz; obtain ⟨x, hx, rfl⟩ := List.mem_map.mp hz; exact abs_nonneg _))))
    rw [egh] at r2
    rw [(relG L).2]
    exact le_trans r2 le8
  · intro a b ha ha1 hb hb1 L' hL' qL' eL' hin
    have nb := C58.norm_aux laws ng nl qL qL' eL eL' hin
    unfold C58.NearBest at nb
    have sc' := hL'.series_le hn hv
    have bL' := bound hL'
    rw [(relG L).1, (relG L').1, (relG L).2, (relG L').2]
    have pg : 0 < val (q w0).gain := by linarith
    have pl : 0 < val (q w0).loss := by linarith
    have split : ∀ M : List A, (M.map (fun x => termScale (a / val (q w0).gain) (b / val (q w0).loss) m V (cells x))).sum =
        a / val (q w0).gain * (M.map (fun x => ∑ k ∈ Finset.range m, gainScale (cells x) (V k))).sum +
        b / val (q w0).loss * (M.map (fun x => ∑ k ∈ Finset.range m, lossScale (cells x) (V k))).sum := by
      intro M
      unfold termScale
      rw [abs_of_nonneg (div_nonneg ha pg.le), abs_of_nonneg (div_nonneg hb pl.le), List.sum_map_add, List.sum_map_mul_left,
        List.sum_map_mul_left]
    rw [split, split, ← ec] at nb
    have := rel_value (G := gainOf (fun a => entQ m V (cells a)) L) (G' := gainOf (fun a => entQ m V (cells a)) L')
      (B := lossOf (fun a => entQ m V (cells a)) L) (B' := lossOf (fun a => entQ m V (cells a)) L')
      (s := (L.map (fun x => ∑ k ∈ Finset.range m, gainScale (cells x) (V k))).sum +
        (L'.map (fun x => ∑ k ∈ Finset.range m, gainScale (cells x) (V k))).sum)
      (s' := (L.map (fun x => ∑ k ∈ Finset.range m, lossScale (cells x) (V k))).sum +
        (L'.map (fun x => ∑ k ∈ Finset.range m, lossScale (cells x) (V k))).sum)
      hX hY ha ha1 hb hb1 rg rl rg' rl' hc0 hκ bL.1 bL'.1 bL.2 bL'.2
      (by
        refine le_trans nb (le_of_eq ?_)
        ring)
      (by have := le_trans sc'.1 sX; linarith) (by have := le_trans sc'.2 sY; linarith)
    unfold relErr
    rw [← ec]
    exact this
end

end Lp
