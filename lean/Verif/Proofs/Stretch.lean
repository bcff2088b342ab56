import Verif.Proofs.Scale

/-!
# Cutting every value into `c` equal pieces: entropy measures

A set of pieces `I` is seen through its `c` samples: sample `s` holds the values whose piece number `s` is in `I`.
-/

namespace Lp
open Spec
open scoped BigOperators
variable {ι J : Type} {c : Nat}

/-- The pieces in `I` are the pieces number `s` of the values in `samp s`, `s < c`. -/
def Sampled (c : Nat) (pc : Nat → ι → J) (I : Finset J) (samp : Nat → Finset ι) : Prop :=
  ∀ f : J → ℝ, ∑ y ∈ I, f y = ∑ s ∈ Finset.range c, ∑ x ∈ samp s, f (pc s x)

variable {pc : Nat → ι → J} {I : Finset J} {samp : Nat → Finset ι} {V : ι → ℝ} {w : J → ℝ}

theorem xlog2_div (hc : 0 < c) (x : ℝ) : xlog2 (x / c) = (xlog2 x - x * Real.logb 2 c) / c := by
  have hc' : (0 : ℝ) < c := by exact_mod_cast hc
  have h := xlog2_mul (c := ((c : ℝ))⁻¹) (inv_pos.mpr hc') x
  rw [Real.logb_inv, inv_mul_eq_div, inv_mul_eq_div] at h
  rw [h]
  field_simp
  ring

theorem sampled_sum (h : Sampled c pc I samp) (hw : ∀ s < c, ∀ x ∈ samp s, w (pc s x) = V x / c) :
    ∑ y ∈ I, w y = (∑ s ∈ Finset.range c, ∑ x ∈ samp s, V x) / c := by
  rw [h w, Finset.sum_div]
  refine Finset.sum_congr rfl (fun s hs => ?_)
  rw [Finset.sum_div]
  exact Finset.sum_congr rfl (fun x hx => hw s (Finset.mem_range.mp hs) x hx)

theorem sampled_xlog (hc : 0 < c) (h : Sampled c pc I samp) (hw : ∀ s < c, ∀ x ∈ samp s, w (pc s x) = V x / c) :
    ∑ y ∈ I, xlog2 (w y) =
      (∑ s ∈ Finset.range c, (∑ x ∈ samp s, xlog2 (V x) - (∑ x ∈ samp s, V x) * Real.logb 2 c)) / c := by
  rw [h (fun y => xlog2 (w y)), Finset.sum_div]
  refine Finset.sum_congr rfl (fun s hs => ?_)
  rw [Finset.sum_mul, ← Finset.sum_sub_distrib, Finset.sum_div]
  refine Finset.sum_congr rfl (fun x hx => ?_)
  rw [hw s (Finset.mem_range.mp hs) x hx, xlog2_div hc]

theorem sampled_card (h : Sampled c pc I samp) : (I.card : ℝ) = ∑ s ∈ Finset.range c, ((samp s).card : ℝ) := by
  have := h (fun _ => 1)
  simpa using this

/-- The gain of a set of pieces is at most the average gain of its samples plus `S log₂ c`, and equal to it only if all the samples
have the same sum. -/
theorem sampled_gain (hc : 0 < c) (h : Sampled c pc I samp) (hw : ∀ s < c, ∀ x ∈ samp s, w (pc s x) = V x / c)
    (h0 : ∀ s < c, ∀ x ∈ samp s, 0 ≤ V x) :
    c * gainOver I w ≤ ∑ s ∈ Finset.range c, (gainOver (samp s) V + (∑ x ∈ samp s, V x) * Real.logb 2 c) ∧
    (c * gainOver I w = ∑ s ∈ Finset.range c, (gainOver (samp s) V + (∑ x ∈ samp s, V x) * Real.logb 2 c) ↔
      ∀ s < c, ∀ t < c, ∑ x ∈ samp s, V x = ∑ x ∈ samp t, V x) := by
  have hc' : (0 : ℝ) < c := by exact_mod_cast hc
  have hj := xlog2_jensen (t := Finset.range c) (n := fun _ => 1) (x := fun s => ∑ x ∈ samp s, V x) (fun _ _ => one_pos)
    (fun s hs => Finset.sum_nonneg (h0 s (Finset.mem_range.mp hs))) ⟨0, Finset.mem_range.mpr hc⟩
  simp only [one_mul, Finset.sum_const, nsmul_eq_mul, mul_one, Finset.card_range, Finset.mem_range] at hj
  have e : ∑ s ∈ Finset.range c, (gainOver (samp s) V + (∑ x ∈ samp s, V x) * Real.logb 2 c) =
      ∑ s ∈ Finset.range c, xlog2 (∑ x ∈ samp s, V x) -
        ∑ s ∈ Finset.range c, (∑ x ∈ samp s, xlog2 (V x) - (∑ x ∈ samp s, V x) * Real.logb 2 c) := by
    rw [← Finset.sum_sub_distrib]
    refine Finset.sum_congr rfl (fun s _ => ?_)
    unfold gainOver; ring
  have e' : c * gainOver I w = c * xlog2 ((∑ s ∈ Finset.range c, ∑ x ∈ samp s, V x) / c) -
      ∑ s ∈ Finset.range c, (∑ x ∈ samp s, xlog2 (V x) - (∑ x ∈ samp s, V x) * Real.logb 2 c) := by
    unfold gainOver
    rw [sampled_sum h hw, sampled_xlog hc h hw, mul_sub, mul_div_cancel₀ _ hc'.ne']
  rw [e, e']
  refine ⟨by linarith [hj.1], ?_⟩
  rw [sub_left_inj, hj.2]

/-- The loss of a set of pieces is at least the average loss of its samples. -/
theorem sampled_loss (hc : 0 < c) (h : Sampled c pc I samp) (hw : ∀ s < c, ∀ x ∈ samp s, w (pc s x) = V x / c)
    (hw0 : ∀ y ∈ I, 0 ≤ w y) (h0 : ∀ s < c, ∀ x ∈ samp s, 0 ≤ V x) :
    ∑ s ∈ Finset.range c, lossOver (samp s) V ≤ c * lossOver I w := by
  classical
  have hc' : (0 : ℝ) < c := by exact_mod_cast hc
  let T := (Finset.range c).filter (fun s => (samp s).Nonempty)
  have toT : ∀ f : Nat → ℝ, (∀ s, samp s = ∅ → f s = 0) → ∑ s ∈ Finset.range c, f s = ∑ s ∈ T, f s := by
    intro f hf
    rw [Finset.sum_filter]
    refine Finset.sum_congr rfl (fun s _ => ?_)
    split
    · rfl
    · rename_i hs
      exact hf s (Finset.not_nonempty_iff_eq_empty.mp hs)
  have mem : ∀ s ∈ T, s < c ∧ (samp s).Nonempty := fun s hs => by
    have := Finset.mem_filter.mp hs
    exact ⟨Finset.mem_range.mp this.1, this.2⟩
  rcases T.eq_empty_or_nonempty with hT | hT
  · have hI : I = ∅ := by
      have := sampled_card h
      rw [toT _ (fun s hs => by simp [hs]), hT, Finset.sum_empty] at this
      exact Finset.card_eq_zero.mp (by exact_mod_cast this)
    rw [toT _ (fun s hs => by simp [hs, lossOver, gainOver, xlog2]), hT, hI]
    simp [lossOver, gainOver, xlog2]
  have hpos : ∀ s ∈ T, (0 : ℝ) < (samp s).card := fun s hs => by exact_mod_cast (mem s hs).2.card_pos
  have hcard : (I.card : ℝ) = ∑ s ∈ T, ((samp s).card : ℝ) := by
    rw [sampled_card h]; exact toT _ (fun s hs => by simp [hs])
  have hI : I.Nonempty := by
    rw [← Finset.card_pos]
    have : (0 : ℝ) < I.card := by rw [hcard]; exact Finset.sum_pos hpos hT
    exact_mod_cast this
  have hj := (xlog2_jensen (t := T) (n := fun s => ((samp s).card : ℝ)) (x := fun s => (∑ x ∈ samp s, V x) / (samp s).card / c) hpos
    (fun s hs => div_nonneg (div_nonneg (Finset.sum_nonneg (h0 s (mem s hs).1)) (hpos s hs).le) hc'.le) hT).1
  have e1 : ∑ s ∈ T, ((samp s).card : ℝ) * ((∑ x ∈ samp s, V x) / (samp s).card / c) = ∑ y ∈ I, w y := by
    rw [sampled_sum h hw, toT _ (fun s hs => by simp [hs]), Finset.sum_div]
    refine Finset.sum_congr rfl (fun s hs => ?_)
    have := (hpos s hs).ne'
    field_simp
  rw [e1, ← hcard] at hj
  rw [loss_gap hI hw0, sampled_xlog hc h hw, toT _ (fun s hs => by simp [hs, lossOver, gainOver, xlog2]),
    toT _ (fun s hs => by simp [hs]), mul_sub, mul_div_cancel₀ _ hc'.ne']
  have e2 : ∑ s ∈ T, lossOver (samp s) V = ∑ s ∈ T, (∑ x ∈ samp s, xlog2 (V x) - (∑ x ∈ samp s, V x) * Real.logb 2 c) -
      c * ∑ s ∈ T, ((samp s).card : ℝ) * xlog2 ((∑ x ∈ samp s, V x) / (samp s).card / c) := by
    rw [Finset.mul_sum, ← Finset.sum_sub_distrib]
    refine Finset.sum_congr rfl (fun s hs => ?_)
    rw [loss_gap (mem s hs).2 (h0 s (mem s hs).1), xlog2_div hc]
    have := (hpos s hs).ne'
    field_simp
    ring
  rw [e2]
  have := mul_le_mul_of_nonneg_left hj hc'.le
  linarith

/-- If all samples are the same, gain and loss are exact. -/
theorem sampled_const {X : Finset ι} (hc : 0 < c) (h : Sampled c pc I (fun _ => X)) (hw : ∀ s < c, ∀ x ∈ X, w (pc s x) = V x / c)
    (h0 : ∀ x ∈ X, 0 ≤ V x) :
    gainOver I w = gainOver X V + (∑ x ∈ X, V x) * Real.logb 2 c ∧ lossOver I w = lossOver X V := by
  have hc' : (0 : ℝ) < c := by exact_mod_cast hc
  have hg := (sampled_gain hc h hw (fun _ _ => h0)).2.mpr (fun _ _ _ _ => rfl)
  rw [Finset.sum_const, Finset.card_range, nsmul_eq_mul] at hg
  have hg := mul_left_cancel₀ hc'.ne' hg
  refine ⟨hg, ?_⟩
  unfold lossOver
  rw [hg]
  have hs := sampled_sum h hw
  have hn := sampled_card h
  rw [Finset.sum_const, Finset.card_range, nsmul_eq_mul] at hs hn
  rw [mul_div_cancel_left₀ _ hc'.ne'] at hs
  rw [hs, hn]
  rcases X.eq_empty_or_nonempty with rfl | hX
  · simp
  · have : (0 : ℝ) < X.card := by exact_mod_cast hX.card_pos
    rw [Real.logb_mul hc'.ne' this.ne']
    ring

/-! ### Several series, lists of parts -/

variable {A B : Type} {m : Nat}

/-- Each of the `c` lists `Ls s` holds the non-empty samples number `s` of the parts of `M`. -/
structure Samples (c : Nat) (pc : Nat → ι → J) (cellsA : A → Finset ι) (cellsB : B → Finset J) (samp : B → Nat → Finset ι)
    (M : List B) (Ls : Nat → List A) (U : Finset ι) : Prop where
  part : ∀ b ∈ M, Sampled c pc (cellsB b) (samp b)
  list : ∀ s < c, ∀ f : Finset ι → ℝ, f ∅ = 0 → ((Ls s).map (fun a => f (cellsA a))).sum = (M.map (fun b => f (samp b s))).sum
  sub : ∀ s < c, ∀ b ∈ M, samp b s ⊆ U
  cover : ∀ s < c, ∀ v : ι → ℝ, (M.map (fun b => ∑ x ∈ samp b s, v x)).sum = ∑ x ∈ U, v x

/-- Sum of all the values. -/
noncomputable def total (m : Nat) (V : Nat → ι → ℝ) (U : Finset ι) : ℝ := ∑ k ∈ Finset.range m, ∑ x ∈ U, V k x

theorem list_sum_comm {α : Type} (M : List α) (t : Finset Nat) (f : α → Nat → ℝ) :
    (M.map (fun b => ∑ s ∈ t, f b s)).sum = ∑ s ∈ t, (M.map (fun b => f b s)).sum := by
  induction M with
  | nil => simp
  | cons a M ih => simp [ih, Finset.sum_add_distrib]

theorem list_sum_le {α : Type} {M : List α} {f g : α → ℝ} (h : ∀ a ∈ M, f a ≤ g a) :
    (M.map f).sum ≤ (M.map g).sum := List.sum_le_sum h

theorem list_sum_eq {α : Type} {M : List α} {f g : α → ℝ} (h : ∀ a ∈ M, f a ≤ g a) (e : (M.map f).sum = (M.map g).sum) :
    ∀ a ∈ M, f a = g a := by
  induction M with
  | nil => simp
  | cons b M ih =>
    simp only [List.map_cons, List.sum_cons] at e
    have h1 := h b (by simp)
    have h2 := list_sum_le (M := M) (fun a ha => h a (by simp [ha]))
    intro a ha
    rcases List.mem_cons.mp ha with rfl | ha
    · linarith
    · exact ih (fun a ha => h a (by simp [ha])) (by linarith) a ha

variable {cellsA : A → Finset ι} {cellsB : B → Finset J} {samp : B → Nat → Finset ι} {M : List B} {Ls : Nat → List A} {U : Finset ι}
  {V : Nat → ι → ℝ} {w : Nat → J → ℝ}

theorem gainSeries_empty : gainSeries m (∅ : Finset ι) V = 0 := by simp [gainSeries, gainOver, xlog2]
theorem lossSeries_empty : lossSeries m (∅ : Finset ι) V = 0 := by simp [lossSeries, lossOver, gainOver, xlog2]

theorem Samples.gain (h : Samples c pc cellsA cellsB samp M Ls U) (hc : 0 < c)
    (hw : ∀ k < m, ∀ s < c, ∀ x ∈ U, w k (pc s x) = V k x / c) (h0 : ∀ k < m, ∀ x ∈ U, 0 ≤ V k x) :
    c * gainOf (fun b => entQ m w (cellsB b)) M ≤
      ∑ s ∈ Finset.range c, (gainOf (fun a => entQ m V (cellsA a)) (Ls s) + total m V U * Real.logb 2 c) ∧
    (c * gainOf (fun b => entQ m w (cellsB b)) M =
      ∑ s ∈ Finset.range c, (gainOf (fun a => entQ m V (cellsA a)) (Ls s) + total m V U * Real.logb 2 c) →
      ∀ b ∈ M, ∀ k < m, ∀ s < c, ∀ t < c, ∑ x ∈ samp b s, V k x = ∑ x ∈ samp b t, V k x) := by
  have core : ∀ b ∈ M, ∀ k < m, _ := fun b hb k hk => sampled_gain (V := V k) (w := w k) hc (h.part b hb)
    (fun s hs x hx => hw k hk s hs x (h.sub s hs b hb hx)) (fun s hs x hx => h0 k hk x (h.sub s hs b hb hx))
  have eL : c * gainOf (fun b => entQ m w (cellsB b)) M =
      (M.map (fun b => ∑ k ∈ Finset.range m, c * gainOver (cellsB b) (w k))).sum := by
    unfold gainOf entQ gainSeries
    rw [← List.sum_map_mul_left]
    simp only [Finset.mul_sum]
  have eR : ∑ s ∈ Finset.range c, (gainOf (fun a => entQ m V (cellsA a)) (Ls s) + total m V U * Real.logb 2 c) =
      (M.map (fun b => ∑ k ∈ Finset.range m, ∑ s ∈ Finset.range c,
        (gainOver (samp b s) (V k) + (∑ x ∈ samp b s, V k x) * Real.logb 2 c))).sum := by
    rw [list_sum_comm]
    simp only [list_sum_comm]
    rw [Finset.sum_comm]
    refine Finset.sum_congr rfl (fun s hs => ?_)
    have hs := Finset.mem_range.mp hs
    simp only [List.sum_map_add, List.sum_map_mul_right, h.cover s hs]
    rw [Finset.sum_add_distrib, ← Finset.sum_mul]
    congr 1
    rw [← list_sum_comm]
    exact h.list s hs (fun X => gainSeries m X V) gainSeries_empty
  rw [eL, eR]
  have hle : ∀ b ∈ M, ∑ k ∈ Finset.range m, c * gainOver (cellsB b) (w k) ≤ ∑ k ∈ Finset.range m, ∑ s ∈ Finset.range c,
      (gainOver (samp b s) (V k) + (∑ x ∈ samp b s, V k x) * Real.logb 2 c) :=
    fun b hb => Finset.sum_le_sum (fun k hk => (core b hb k (Finset.mem_range.mp hk)).1)
  refine ⟨list_sum_le hle, fun e b hb k hk => ?_⟩
  have e1 := list_sum_eq hle e b hb
  have e2 := (Finset.sum_eq_sum_iff_of_le (fun k hk => (core b hb k (Finset.mem_range.mp hk)).1)).mp e1 k (Finset.mem_range.mpr hk)
  exact (core b hb k hk).2.mp e2

theorem Samples.loss (h : Samples c pc cellsA cellsB samp M Ls U) (hc : 0 < c)
    (hw : ∀ k < m, ∀ s < c, ∀ x ∈ U, w k (pc s x) = V k x / c) (h0 : ∀ k < m, ∀ x ∈ U, 0 ≤ V k x)
    (hw0 : ∀ k < m, ∀ b ∈ M, ∀ y ∈ cellsB b, 0 ≤ w k y) :
    ∑ s ∈ Finset.range c, lossOf (fun a => entQ m V (cellsA a)) (Ls s) ≤ c * lossOf (fun b => entQ m w (cellsB b)) M := by
  have eL : c * lossOf (fun b => entQ m w (cellsB b)) M =
      (M.map (fun b => ∑ k ∈ Finset.range m, c * lossOver (cellsB b) (w k))).sum := by
    unfold lossOf entQ lossSeries
    rw [← List.sum_map_mul_left]
    simp only [Finset.mul_sum]
  have eR : ∑ s ∈ Finset.range c, lossOf (fun a => entQ m V (cellsA a)) (Ls s) =
      (M.map (fun b => ∑ k ∈ Finset.range m, ∑ s ∈ Finset.range c, lossOver (samp b s) (V k))).sum := by
    rw [list_sum_comm]
    simp only [list_sum_comm]
    rw [Finset.sum_comm]
    refine Finset.sum_congr rfl (fun s hs => ?_)
    rw [← list_sum_comm]
    exact h.list s (Finset.mem_range.mp hs) (fun X => lossSeries m X V) lossSeries_empty
  rw [eL, eR]
  exact list_sum_le (fun b hb => Finset.sum_le_sum (fun k hk => sampled_loss hc (h.part b hb)
    (fun s hs x hx => hw k (Finset.mem_range.mp hk) s hs x (h.sub s hs b hb hx)) (hw0 k (Finset.mem_range.mp hk) b hb)
    (fun s hs x hx => h0 k (Finset.mem_range.mp hk) x (h.sub s hs b hb hx))))

/-- Gain and loss of the pieces of all the values of a part. -/
theorem entQ_pieces {X : Finset ι} {I : Finset J} (hc : 0 < c) (h : Sampled c pc I (fun _ => X))
    (hw : ∀ k < m, ∀ s < c, ∀ x ∈ X, w k (pc s x) = V k x / c) (h0 : ∀ k < m, ∀ x ∈ X, 0 ≤ V k x) :
    entQ m w I = ⟨gainSeries m X V + total m V X * Real.logb 2 c, lossSeries m X V⟩ := by
  unfold entQ gainSeries lossSeries total
  congr 1
  · rw [Finset.sum_mul, ← Finset.sum_add_distrib]
    exact Finset.sum_congr rfl (fun k hk => (sampled_const hc h (hw k (Finset.mem_range.mp hk)) (h0 k (Finset.mem_range.mp hk))).1)
  · exact Finset.sum_congr rfl (fun k hk => (sampled_const hc h (hw k (Finset.mem_range.mp hk)) (h0 k (Finset.mem_range.mp hk))).2)

/-! ### The best of averages -/

/-- Value, then gain, then (smaller) loss. -/
def NumLe (a b g' l' g l : ℝ) : Prop :=
  a * g' - b * l' < a * g - b * l ∨ (a * g' - b * l' = a * g - b * l ∧ (g' < g ∨ (g' = g ∧ l ≤ l')))

theorem avg_best {a b g l g' l' S : ℝ} {G Lo : Nat → ℝ} (hc : 0 < c) (ha : 0 ≤ a) (hb : 0 ≤ b)
    (hs : ∀ s < c, NumLe a b (G s) (Lo s) g l) (hM : NumLe a b (g + S) l g' l')
    (hg : c * g' ≤ ∑ s ∈ Finset.range c, (G s + S)) (hl : ∑ s ∈ Finset.range c, Lo s ≤ c * l') :
    g' = g + S ∧ l' = l ∧ c * g' = ∑ s ∈ Finset.range c, (G s + S) := by
  have hc' : (0 : ℝ) < c := by exact_mod_cast hc
  -- values
  have v1 : ∀ s ∈ Finset.range c, a * (G s + S) - b * Lo s ≤ a * (g + S) - b * l := by
    intro s hs'
    have : a * G s - b * Lo s ≤ a * g - b * l := by
      rcases hs s (Finset.mem_range.mp hs') with h | ⟨h, _⟩
      · exact h.le
      · exact h.le
    linarith
  have v2 : a * (g + S) - b * l ≤ a * g' - b * l' := by
    rcases hM with h | ⟨h, _⟩
    · exact h.le
    · exact h.le
  have v3 : c * (a * g' - b * l') ≤ ∑ s ∈ Finset.range c, (a * (G s + S) - b * Lo s) := by
    rw [Finset.sum_sub_distrib, ← Finset.mul_sum, ← Finset.mul_sum]
    have := mul_le_mul_of_nonneg_left hg ha
    have := mul_le_mul_of_nonneg_left hl hb
    linarith
  have v4 : ∑ s ∈ Finset.range c, (a * (G s + S) - b * Lo s) ≤ c * (a * (g + S) - b * l) := by
    have := Finset.sum_le_sum v1
    rwa [Finset.sum_const, Finset.card_range, nsmul_eq_mul] at this
  have v5 := mul_le_mul_of_nonneg_left v2 hc'.le
  have v6 : ∑ s ∈ Finset.range c, (a * (G s + S) - b * Lo s) = ∑ s ∈ Finset.range c, (a * (g + S) - b * l) := by
    rw [Finset.sum_const, Finset.card_range, nsmul_eq_mul]
    linarith
  have v7 := (Finset.sum_eq_sum_iff_of_le v1).mp v6
  have v8 : a * (g + S) - b * l = a * g' - b * l' := le_antisymm v2 (le_of_mul_le_mul_left (by linarith) hc')
  -- gains
  have g1 : ∀ s ∈ Finset.range c, G s + S ≤ g + S := by
    intro s hs'
    have := v7 s hs'
    rcases hs s (Finset.mem_range.mp hs') with h | ⟨_, h | ⟨h, _⟩⟩ <;> linarith
  have g2 : g + S ≤ g' := by
    rcases hM with h | ⟨_, h | ⟨h, _⟩⟩ <;> linarith
  have g3 := Finset.sum_le_sum g1
  have g4 := mul_le_mul_of_nonneg_left g2 hc'.le
  have e : ∑ _s ∈ Finset.range c, (g + S) = c * (g + S) := by
    rw [Finset.sum_const, Finset.card_range, nsmul_eq_mul]
  have g6 : ∑ s ∈ Finset.range c, (G s + S) = ∑ _s ∈ Finset.range c, (g + S) := by linarith
  have g7 := (Finset.sum_eq_sum_iff_of_le g1).mp g6
  have g8 : g' = g + S := le_antisymm (le_of_mul_le_mul_left (by linarith) hc') g2
  refine ⟨g8, ?_, by rw [g6, e, g8]⟩
  have l1 : ∀ s ∈ Finset.range c, l ≤ Lo s := by
    intro s hs'
    have h1 := v7 s hs'
    have h2 := g7 s hs'
    rcases hs s (Finset.mem_range.mp hs') with h | ⟨_, h | ⟨_, h⟩⟩
    · linarith
    · linarith
    · exact h
  have l2 : l' ≤ l := by
    rcases hM with h | ⟨_, h | ⟨_, h⟩⟩
    · linarith
    · linarith
    · exact h
  have l3 := Finset.sum_le_sum l1
  rw [Finset.sum_const, Finset.card_range, nsmul_eq_mul] at l3
  exact le_antisymm l2 (le_of_mul_le_mul_left (by linarith) hc')

end Lp
